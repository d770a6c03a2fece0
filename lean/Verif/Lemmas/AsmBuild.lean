import Verif.Lemmas.AsmSum

namespace Peak
open Peak.Spec

/-- Assumptions on the validator requests made in a process: `A` are the requests that may occur, `P` what is known
of the validators in the cache. -/
structure Env where
  A : List Nat → Nat → Prop
  P : List Nat → Nat → Prop
  acc : Prop
  ex : Prop
  hP : ∀ ops w, A ops w → ops ≠ [] → P (sortNat ops) w
  hR : ∀ ops w r, A ops w → IsRun r → (∀ x ∈ r, x ∈ ops) → P r w
  hacc : acc → ∀ ops w w', A ops w → P (sortNat ops) w' → ∀ b : BV, b.size = w → b.val ∈ ops →
    pureV (sortNat ops) w' b = true
  hex : ex → ∀ ops w w', A ops w → P (sortNat ops) w' → ∀ b : BV, b.size = w →
    pureV (sortNat ops) w' b = true → b.val ∈ ops

theorem request (E : Env) {c : VCache} (hc : CInv E.P c) {ops : List Nat} {w : Nat} (hne : ops ≠ [])
    (hA : E.A ops w) : ∃ v c', genIsValid ops w c = (.ok v, c') ∧ CInv E.P c' ∧
      (∃ w', v = pureV (sortNat ops) w' ∧ E.P (sortNat ops) w') ∧
      (E.acc → ∀ b : BV, b.size = w → b.val ∈ ops → v b = true) ∧
      (E.ex → ∀ b : BV, b.size = w → v b = true → b.val ∈ ops) := by
  obtain ⟨v, c', h1, h2, w', h3, h4⟩ := genIsValid_inv hc hne (E.hP ops w hA hne)
    (fun r hr hs => E.hR ops w r hA hr hs)
  refine ⟨v, c', h1, h2, ⟨w', h3, h4⟩, ?_, ?_⟩
  · intro ha b hb hm; rw [h3]; exact E.hacc ha ops w w' hA h4 b hb hm
  · intro he b hb hm; rw [h3] at hm; exact E.hex he ops w w' hA h4 b hb hm

mutual
/-- All validator requests made when building `t` satisfy `A`. -/
def Reqs (A : List Nat → Nat → Prop) : Ty → Prop
  | .bv _ _ => True
  | .bit _ => True
  | .enum _ ms => ∀ a, enumTables ms = .ok a → a.asm ≠ [] →
      A (dictValues a.asm []) (bitLength (listMax (dictValues a.asm [])))
  | .prod _ fs => ReqsAll A fs
  | .sum _ fs => ReqsAll A fs ∧
      (fs.toList ≠ [] → A (List.range fs.toList.length) (tagBits fs.toList.length)) ∧
      ∀ ty ∈ fs.toList.map (·.2), A (tagsOf ty fs.toList 0) (tagBits fs.toList.length)
def ReqsAll (A : List Nat → Nat → Prop) : Fields → Prop
  | .nil => True
  | .cons _ t fs => Reqs A t ∧ ReqsAll A fs
end

/-- Process state invariant. -/
def SInv (E : Env) (st : St) : Prop :=
  CInv E.P st.vcache ∧ ∀ p ∈ st.icache, WF p.1 → Good E.acc E.ex p.1 p.2

theorem sumValidators_spec (E : Env) (tw : Nat) : ∀ (rows : List FRow) (c : VCache), CInv E.P c →
    (∀ r ∈ rows, r.tags ≠ [] ∧ E.A r.tags tw) →
    ∃ vs c', sumValidators tw rows c = (.ok vs, c') ∧ CInv E.P c' ∧ vs.map (·.1) = rows ∧
      (E.acc → ∀ p ∈ vs, ∀ b : BV, b.size = tw → b.val ∈ p.1.tags → p.2 b = true) ∧
      (E.ex → ∀ p ∈ vs, ∀ b : BV, b.size = tw → p.2 b = true → b.val ∈ p.1.tags) ∧
      ∀ p ∈ vs, ∃ w', p.2 = pureV (sortNat p.1.tags) w' ∧ E.P (sortNat p.1.tags) w' := by
  intro rows
  induction rows with
  | nil => intro c hc _; exact ⟨[], c, rfl, hc, rfl, by simp, by simp, by simp⟩
  | cons r rows ih =>
    intro c hc hr
    obtain ⟨v, c1, h1, h2, h5, h3, h4⟩ := request E hc (hr r (by simp)).1 (hr r (by simp)).2
    obtain ⟨vs, c2, i1, i2, i3, i4, i5, i6⟩ := ih c1 h2 (fun r hr' => hr r (by simp [hr']))
    refine ⟨(r, v) :: vs, c2, by simp only [sumValidators, h1, i1], i2, by simp [i3], ?_, ?_, ?_⟩
    · intro ha p hp
      rcases List.mem_cons.1 hp with hp | hp
      · subst hp; exact h3 ha
      · exact i4 ha p hp
    · intro ha p hp
      rcases List.mem_cons.1 hp with hp | hp
      · subst hp; exact h4 ha
      · exact i5 ha p hp
    · intro p hp
      rcases List.mem_cons.1 hp with hp | hp
      · subst hp; exact h5
      · exact i6 p hp

theorem tagsIn_row {rows : List FRow} (hn : (rows.map (·.ty)).Nodup) {r : FRow} (hr : r ∈ rows) :
    rows.find? (fun x => x.ty == r.ty) = some r := by
  induction rows with
  | nil => simp at hr
  | cons x rows ih =>
    simp only [List.map_cons, List.nodup_cons] at hn
    rcases List.mem_cons.1 hr with hr | hr
    · subst hr; simp
    · have : (x.ty == r.ty) = false := by
        simp only [beq_eq_false_iff_ne]
        intro h; apply hn.1; rw [h]; exact List.mem_map.2 ⟨r, hr, rfl⟩
      simp only [List.find?_cons, this]
      exact ih hn.2 hr

/-- The type-independent part of building a union: the requests, and the resulting accumulators. -/
theorem sumObj_inv (E : Env) {l : List (Key × Ty × AsmObj)} {c : VCache} (hc : CInv E.P c)
    (hA0 : l ≠ [] → E.A (List.range l.length) (tagBits l.length))
    (hA : ∀ ty ∈ l.map (·.2.1), E.A (tagsOf ty (pairs l) 0) (tagBits l.length)) :
    CInv E.P (sumObj l c).2 ∧
    ∀ a, l ≠ [] → sumScan (tagBits l.length) l 0 {} = .ok a →
      (a.rows.map (·.ty)).Nodup ∧
      (∀ r ∈ a.rows, r.tags = tagsOf r.ty (pairs l) 0) ∧
      (∀ ty, ty ∈ a.rows.map (·.ty) ↔ ty ∈ l.map (·.2.1)) ∧
      (∀ r ∈ a.rows, ∃ x ∈ l, r.ty = x.2.1 ∧ r.obj = x.2.2 ∧ r.lo = tagBits l.length ∧
        r.hi = tagBits l.length + x.2.2.width) ∧
      ∃ vs tagIsv o c', sumObj l c = (.ok o, c') ∧ vs.map (·.1) = a.rows ∧
      (E.acc → ∀ p ∈ vs, ∀ b : BV, b.size = tagBits l.length → b.val ∈ p.1.tags → p.2 b = true) ∧
      (E.ex → ∀ p ∈ vs, ∀ b : BV, b.size = tagBits l.length → p.2 b = true → b.val ∈ p.1.tags) ∧
      (∀ p ∈ vs, ∃ w', p.2 = pureV (sortNat p.1.tags) w' ∧ E.P (sortNat p.1.tags) w') ∧
      (∀ b : BV, b.size = tagBits l.length → b.val < l.length → tagIsv b = true) ∧
      (E.ex → ∀ b : BV, b.size = tagBits l.length → tagIsv b = true → b.val < l.length) ∧
      o.asm = sumAsm a (tagBits l.length) ∧ o.dsm = sumDsm a (tagBits l.length) ∧
      o.isv = sumIsv vs (tagBits l.length) ∧ o.width = tagBits l.length + a.payloadWidth ∧
      o.layout = a.names.map (fun n => (n.key, (n.lo, n.hi))) ∧
      ∃ tg, o.tag = some tg ∧ tg.width = tagBits l.length ∧ tg.isv = tagIsv ∧
        (∀ k, tg.asm k = match a.names.find? (fun n => n.key == k) with
                | some n => .ok n.tag
                | none => .error .keyError) ∧
        (∀ b, tg.dsm b = match a.names.find? (fun n => n.tag == b.val) with
                | some n => .ok n.key
                | none => .error .keyError) := by
  by_cases hl : l = []
  · subst hl
    refine ⟨?_, fun a h => absurd rfl h⟩
    simp only [sumObj, sumScan]
    exact hc
  cases hs : sumScan (tagBits l.length) l 0 {} with
  | error e =>
    refine ⟨?_, by intro a _ h; simp at h⟩
    unfold sumObj
    simp only [tagBits] at hs
    simp only [hs]; exact hc
  | ok a =>
    obtain ⟨s1, s2, s3, s4, s5, s6, s7⟩ := sumScan_spec _ _ _ _ _ hs
    simp only [List.map_nil, List.nil_append, List.not_mem_nil, false_or, List.nodup_nil, true_implies,
      false_and, exists_false] at s1 s2 s3 s4 s6 s7
    have hty : ∀ r ∈ a.rows, r.tags = tagsOf r.ty (pairs l) 0 := by
      intro r hr
      have := s5 r.ty
      simp only [tagsIn, tagsIn_row s4 hr, List.find?_nil, List.nil_append] at this
      exact this
    have hne : ∀ r ∈ a.rows, r.tags ≠ [] ∧ E.A r.tags (tagBits l.length) := by
      intro r hr
      have hm : r.ty ∈ l.map (·.2.1) := (s6 r.ty).1 (List.mem_map.2 ⟨r, hr, rfl⟩)
      refine ⟨?_, by rw [hty r hr]; exact hA _ hm⟩
      rw [hty r hr]
      obtain ⟨x, hx, hx'⟩ := List.mem_map.1 hm
      obtain ⟨j, hj⟩ := List.getElem?_of_mem hx
      have : (0 + j) ∈ tagsOf r.ty (pairs l) 0 := by
        rw [mem_tagsOf]
        exact ⟨j, x.1, rfl, by simp [pairs, hj, hx']⟩
      intro h; rw [h] at this; simp at this
    obtain ⟨vs, c1, v1, v2, v3, v4, v5, v6⟩ := sumValidators_spec E (tagBits l.length) a.rows c hc hne
    have hnames : a.names.map (·.tag) = List.range l.length := by rw [s2, List.range_eq_range']
    have hr0 : List.range l.length ≠ [] := by
      intro h; have := congrArg List.length h; simp at this; exact hl this
    obtain ⟨tagIsv, c2, t1, t2, ⟨w', t3, _⟩, t4, t5⟩ := request E v2 hr0 (hA0 hl)
    have hnn : a.names ≠ [] := by
      intro h; rw [h] at hnames; exact hr0 hnames.symm
    have hobj : sumObj l c = (.ok {
            asm := sumAsm a (tagBits l.length)
            dsm := sumDsm a (tagBits l.length)
            isv := sumIsv vs (tagBits l.length)
            width := (tagBits l.length) + a.payloadWidth
            layout := a.names.map (fun n => (n.key, (n.lo, n.hi)))
            tag := some {
              asm := fun k => match a.names.find? (fun n => n.key == k) with
                | some n => .ok n.tag
                | none => .error .keyError
              dsm := fun b => match a.names.find? (fun n => n.tag == b.val) with
                | some n => .ok n.key
                | none => .error .keyError
              isv := tagIsv
              width := (tagBits l.length) } }, c2) := by
      unfold sumObj
      simp only [tagBits] at hs v1 t1 ⊢
      simp only [hs, if_neg hnn, v1, hnames, t1]
      rfl
    refine ⟨by rw [hobj]; exact t2, ?_⟩
    intro a' _ ha'
    simp only [Except.ok.injEq] at ha'
    subst ha'
    refine ⟨s4, hty, s6, s7, vs, tagIsv, _, c2, hobj, v3, v4, v5, v6, ?_, ?_, rfl, rfl, rfl, rfl, rfl, _, rfl, rfl, rfl, fun _ => rfl, fun _ => rfl⟩
    · intro b hb hlt
      rw [t3]
      have hrun : IsRun (List.range l.length) := by
        refine ⟨0, l.length - 1, ?_⟩
        have : l.length ≠ 0 := fun h => hl (List.length_eq_zero_iff.1 h)
        rw [List.range_eq_range']; congr 1; omega
      apply pureV_accepts
      · rw [mem_sortNat]; simpa using hlt
      · intro x hx
        rw [mem_sortNat, List.mem_range] at hx
        rw [hb]; exact lt_tagBits hx
      · intro h
        rw [hrun.sort] at h
        simp [oneHotZero, hrun.isRangeB] at h
    · intro he b hb hv
      simpa using t5 he b hb hv

theorem sumObj_good (E : Env) {cl : Nat} {fs : Fields} (hw : WF (.sum cl fs)) {l : List (Key × Ty × AsmObj)}
    (hg : GoodAll E.acc E.ex fs l) {c : VCache} (hc : CInv E.P c)
    (hA0 : l ≠ [] → E.A (List.range l.length) (tagBits l.length))
    (hA : ∀ ty ∈ l.map (·.2.1), E.A (tagsOf ty (pairs l) 0) (tagBits l.length)) :
    ∃ o c', sumObj l c = (.ok o, c') ∧ Good E.acc E.ex (.sum cl fs) o := by
  obtain ⟨hne, hnd, hws⟩ := hw
  obtain ⟨hp, hgs⟩ := goodAll_pairs fs l hg
  have hlen : l.length = fs.toList.length := by rw [← hp]; simp [pairs]
  have hl : l ≠ [] := by intro h; apply hne; rw [← hp, h]; rfl
  have hkeys : l.map (·.1) = fs.toList.map (·.1) := by rw [← hp]; simp [pairs, Function.comp_def]
  obtain ⟨a, ha⟩ := sumScan_ok (tagBits l.length) l 0 {} (by rw [hkeys]; exact hnd) (by simp)
  obtain ⟨_, H⟩ := sumObj_inv E hc hA0 hA
  obtain ⟨r1, r2, r3, r4, vs, tagIsv, o, c', ho, hvs, hacc, hex, _, tacc, tex, oa, od, oi, ow, ol, tg, og, tgw, tgi, tga, tgd⟩ := H a hl ha
  obtain ⟨hnames, hpw⟩ := sumScan_names _ l 0 {} a ha (fun x hx => (hgs x hx).width) (by simp)
  rw [hp] at hnames hpw r2
  simp only [List.nil_append] at hnames
  have hpw' : a.payloadWidth = maxWidth fs := by rw [hpw, maxW_toList]; simp
  rw [hlen] at *
  generalize htw : tagBits fs.toList.length = tw at *
  -- rows
  have hrow : ∀ (i : Nat) (k : Key) (t : Ty), fs.toList[i]? = some (k, t) →
      ∃ r ∈ a.rows, a.rows.find? (fun r => r.ty == t) = some r ∧ r.ty = t ∧ Good E.acc E.ex t r.obj ∧ r.lo = tw ∧
        r.hi = tw + width t ∧ i ∈ r.tags := by
    intro i k t hi
    have ht : t ∈ l.map (·.2.1) := by
      have : t ∈ (pairs l).map (·.2) := by rw [hp]; exact List.mem_map.2 ⟨_, List.mem_of_getElem? hi, rfl⟩
      simpa [pairs, Function.comp_def] using this
    obtain ⟨r, hr, hrt⟩ := List.mem_map.1 ((r3 t).2 ht)
    obtain ⟨x, hx, e1, e2, e3, e4⟩ := r4 r hr
    have hgx := hgs x hx
    rw [← e1, ← e2, hrt] at hgx
    refine ⟨r, hr, ?_, hrt, hgx, e3, ?_, ?_⟩
    · have := tagsIn_row r1 hr; rw [hrt] at this; exact this
    · rw [e4, ← e2, hgx.width]
    · rw [r2 r hr, mem_tagsOf]; exact ⟨i, k, by omega, by rw [hrt]; exact hi⟩
  have htag : ∀ (b : BV), b.size = tw + maxWidth fs →
      (b.slice 0 tw).size = tw ∧ (b.slice 0 tw).val = b.val % 2 ^ tw := by
    intro b hb
    have := slice_field (b := b) (base := 0) (w := tw) (by omega)
    simpa using this
  have hfind : ∀ x, a.names.find? (fun n => n.tag == x) =
      (fs.toList[x]?).map (fun p => ⟨p.1, p.2, x, tw, tw + width p.2⟩) := by
    intro x
    have := nameRows_tag tw fs.toList 0 x
    rw [hnames]; simpa using this
  have hvs' : ∀ p ∈ vs, p.1 ∈ a.rows := by
    intro p hp'; rw [← hvs]; exact List.mem_map.2 ⟨p, hp', rfl⟩
  refine ⟨o, c', ho, ?_⟩
  constructor
  · rw [ow, hpw']; simp [Spec.width, htw]
  · intro v hv
    cases v <;> simp only [Ty.Has] at hv
    next k v =>
      have hk := hasAt_mem fs k v hv
      obtain ⟨t, ht⟩ := optionIndex_get fs k hk
      have htv := hasAt_get fs k v t hnd hv ht
      obtain ⟨r, _, q1, q2, q3, _⟩ := hrow _ k t ht
      rw [oa]
      have hnk := nameRows_key tw fs 0 k
      rw [if_pos hk, ht] at hnk
      simp only [sumAsm, hnames, hnk, Option.map_some, q1, q3.asm_ok v htv, encode, htw]
      rw [Nat.or_comm, or_shift, encodeAt_get fs k v t ht]
      · simp
      · have := lt_tagBits (optionIndex_lt fs k hk); rw [htw] at this; simpa using this
  · intro b v hb h
    simp only [Spec.width, htw] at hb
    rw [od] at h
    simp only [sumDsm, hfind, (htag b hb).2] at h
    cases hg' : fs.toList[b.val % 2 ^ tw]? with
    | none => rw [hg'] at h; simp at h
    | some p =>
      obtain ⟨k, t⟩ := p
      obtain ⟨r, _, q1, q2, q3, q4, q5, _⟩ := hrow _ k t hg'
      rw [hg'] at h
      simp only [Option.map_some, q1, q4, q5] at h
      have hw' := width_le_maxWidth fs _ k t hg'
      obtain ⟨z1, z2⟩ := slice_field (b := b) (base := tw) (w := width t) (by omega)
      split at h
      · simp at h
      · next v' hv' =>
        simp only [Except.ok.injEq] at h
        subst h
        simp only [Reads, htw]
        rw [readsAt_iff]
        refine ⟨t, hg', ?_⟩
        have := q3.disassemble_sound z1 hv'
        rw [z2, reads_mod _ _ _ _ (Nat.le_refl _)] at this
        exact this
  · intro hac b v hb h
    simp only [Spec.width, htw] at hb
    cases v <;> simp only [Reads] at h
    next k v =>
      rw [htw, readsAt_iff] at h
      obtain ⟨t, hg', hr⟩ := h
      obtain ⟨r, hr1, q1, q2, q3, q4, q5, q6⟩ := hrow _ k t hg'
      have hw' := width_le_maxWidth fs _ k t hg'
      obtain ⟨z1, z2⟩ := slice_field (b := b) (base := tw) (w := width t) (by omega)
      rw [oi]
      simp only [sumIsv, foldl_or_any, Bool.false_or, List.any_eq_true]
      have hr2 : r ∈ vs.map (·.1) := by rw [hvs]; exact hr1
      obtain ⟨p, hp1, hp2⟩ := List.mem_map.1 hr2
      refine ⟨p, hp1, ?_⟩
      have y1 : p.2 (b.slice 0 tw) = true := by
        apply hacc hac p hp1 _ (htag b hb).1
        rw [(htag b hb).2, hp2]; exact q6
      have y2 : p.1.obj.isValid (b.slice p.1.lo p.1.hi) = true := by
        rw [hp2, q4, q5]
        apply q3.accepts hac _ v z1
        rw [z2, reads_mod _ _ _ _ (Nat.le_refl _)]; exact hr
      simp [y1, y2]
  · intro hac b v hb h
    simp only [Spec.width, htw] at hb
    cases v <;> simp only [Reads] at h
    next k v =>
      rw [htw, readsAt_iff] at h
      obtain ⟨t, hg', hr⟩ := h
      obtain ⟨r, hr1, q1, q2, q3, q4, q5, q6⟩ := hrow _ k t hg'
      have hw' := width_le_maxWidth fs _ k t hg'
      obtain ⟨z1, z2⟩ := slice_field (b := b) (base := tw) (w := width t) (by omega)
      rw [od]
      have hd : r.obj.disassemble (b.slice tw (tw + width t)) = .ok v := by
        apply q3.disassemble_complete hac z1
        rw [z2, reads_mod _ _ _ _ (Nat.le_refl _)]; exact hr
      simp only [sumDsm, hfind, (htag b hb).2, hg', Option.map_some, q1, q4, q5, hd]
  · intro hec b hb h
    simp only [Spec.width, htw] at hb
    rw [oi] at h
    simp only [sumIsv, foldl_or_any, Bool.false_or, List.any_eq_true, Bool.and_eq_true] at h
    obtain ⟨p, hp1, y1, y2⟩ := h
    have hpr := hvs' p hp1
    have hm := hex hec p hp1 _ (htag b hb).1 y1
    rw [(htag b hb).2, r2 _ hpr, mem_tagsOf] at hm
    obtain ⟨j, k, hj, hg'⟩ := hm
    rw [Nat.zero_add] at hj
    rw [← hj] at hg'
    obtain ⟨r, hr1, q1, q2, q3, q4, q5, q6⟩ := hrow _ k _ hg'
    have hpe : r = p.1 := by
      have := tagsIn_row r1 hpr; rw [this] at q1; simpa using q1.symm
    subst hpe
    have hw' := width_le_maxWidth fs _ k _ hg'
    obtain ⟨z1, z2⟩ := slice_field (b := b) (base := tw) (w := width p.1.ty) (by omega)
    rw [q4, q5] at y2
    obtain ⟨v, hv⟩ := q3.disassemble_exact hec z1 y2
    rw [od]
    exact ⟨.sum k v, by simp only [sumDsm, hfind, (htag b hb).2, hg', Option.map_some, q1, q4, q5, hv]⟩
  · rw [ol, hnames]
    simp only [layoutOf, htw]
    have : ∀ (l : List (Key × Ty)) (t0 : Nat), (nameRows tw l t0).map (fun n => (n.key, (n.lo, n.hi))) =
        l.map (fun p => (p.1, (tw, tw + width p.2))) := by
      intro l
      induction l with
      | nil => intro t0; rfl
      | cons p l ih => intro t0; obtain ⟨k, t⟩ := p; simp only [nameRows, List.map_cons, ih]
    exact this _ _
  · refine ⟨tg, og, ?_, ?_, ?_, ?_, ?_⟩
    · rw [tgw, htw]
    · intro k hk
      rw [tga, hnames]
      obtain ⟨t, ht⟩ := optionIndex_get fs k hk
      have hnk := nameRows_key tw fs 0 k
      rw [if_pos hk, ht] at hnk
      simp [hnk]
    · intro b k
      rw [tgd, hfind]
      cases hg' : fs.toList[b.val]? with
      | none => simp [hg']
      | some p => simp [hg']
    · intro b hb hlt; rw [tgi]; exact tacc b (by rw [← htw]; exact hb) hlt
    · intro hec b hb hv; rw [tgi] at hv; exact tex hec b (by rw [← htw]; exact hb) hv

/-! ### building, with any history -/

theorem cached_inv (E : Env) {t : Ty} {make : St → Except Err AsmObj × St} {st : St} (hS : SInv E st)
    (h1 : SInv E (make st).2) (h2 : WF t → ∃ o, (make st).1 = .ok o ∧ Good E.acc E.ex t o) :
    SInv E (cached t make st).2 ∧ (WF t → ∃ o, (cached t make st).1 = .ok o ∧ Good E.acc E.ex t o) := by
  unfold cached
  cases hl : st.icache.lookup t with
  | some o =>
    refine ⟨hS, fun hw => ⟨o, rfl, ?_⟩⟩
    exact hS.2 (t, o) (mem_of_lookup hl) hw
  | none =>
    simp only
    generalize make st = m at *
    obtain ⟨r, st'⟩ := m
    cases r with
    | error e =>
      refine ⟨h1, fun hw => ?_⟩
      obtain ⟨o, ho, _⟩ := h2 hw
      simp at ho
    | ok o =>
      refine ⟨⟨h1.1, ?_⟩, fun hw => ?_⟩
      · intro p hp hw
        rcases List.mem_cons.1 hp with hp | hp
        · subst hp
          obtain ⟨o', ho, hg⟩ := h2 hw
          simp only [Except.ok.injEq] at ho
          subst ho; exact hg
        · exact h1.2 p hp hw
      · obtain ⟨o', ho, hg⟩ := h2 hw
        simp only [Except.ok.injEq] at ho
        subst ho
        exact ⟨o, rfl, hg⟩

mutual
theorem build_inv (E : Env) : ∀ (t : Ty) (st : St), Reqs E.A t → SInv E st →
    SInv E (t.build st).2 ∧ (WF t → ∃ o, (t.build st).1 = .ok o ∧ Good E.acc E.ex t o)
  | .bv c w, st, _, hS => by
    unfold Ty.build
    exact cached_inv E hS hS (fun _ => ⟨_, rfl, bvObj_good _ _ c w⟩)
  | .bit c, st, _, hS => by
    unfold Ty.build
    exact cached_inv E hS hS (fun _ => ⟨_, rfl, bitObj_good _ _ c⟩)
  | .enum c ms, st, hq, hS => by
    unfold Ty.build
    have key : CInv E.P (enumObj ms st.vcache).2 ∧ (WF (.enum c ms) → ∃ o, (enumObj ms st.vcache).1 = .ok o ∧
        Good E.acc E.ex (.enum c ms) o) := by
      cases ht : enumTables ms with
      | error e =>
        refine ⟨by simp only [enumObj, ht]; exact hS.1, fun hw => ?_⟩
        obtain ⟨a, ha, _⟩ := enum_request (ms := ms) hw
        rw [ht] at ha; simp at ha
      | ok a =>
        by_cases hne : a.asm = []
        · refine ⟨by simp only [enumObj, ht, if_pos hne]; exact hS.1, fun hw => ?_⟩
          obtain ⟨a', ha, hne', _⟩ := enum_request (ms := ms) hw
          rw [ht] at ha; cases ha; exact absurd hne hne'
        · have hdv : dictValues a.asm [] ≠ [] := by
            cases h : a.asm with
            | nil => exact absurd h hne
            | cons p l => obtain ⟨k, v⟩ := p; simp [dictValues]
          obtain ⟨isv, vc', g1, g2, _, g3, g4⟩ := request E hS.1 hdv (hq a ht hne)
          refine ⟨by simp only [enumObj, ht, if_neg hne, g1]; exact g2, fun hw => ?_⟩
          obtain ⟨a', ha', _, _, _, hwd⟩ := enum_request (ms := ms) hw
          rw [ht] at ha'; cases ha'
          obtain ⟨o, ho, hg⟩ := enumObj_good (acc := E.acc) (ex := E.ex) hw ht g1
            (by rw [← hwd]; exact g3) (by rw [← hwd]; exact g4)
          exact ⟨o, by rw [ho], hg⟩
    refine cached_inv E hS ?_ ?_
    · exact ⟨key.1, hS.2⟩
    · exact key.2
  | .prod c fs, st, hq, hS => by
    unfold Ty.build
    obtain ⟨k1, k2, k3⟩ := buildAll_inv E fs st hq hS
    refine cached_inv E hS ?_ ?_
    · generalize fs.build st = m at *
      obtain ⟨r, st'⟩ := m
      cases r <;> exact k1
    · intro hw
      obtain ⟨l, hl, hg⟩ := k2 hw.2
      generalize fs.build st = m at *
      obtain ⟨r, st'⟩ := m
      simp only at hl
      subst hl
      exact ⟨_, rfl, tupleObj_good hw.2 hg⟩
  | .sum c fs, st, hq, hS => by
    unfold Ty.build
    obtain ⟨k1, k2, k3⟩ := buildAll_inv E fs st hq.1 hS
    have hq2 := hq.2
    refine cached_inv E hS ?_ ?_
    · generalize fs.build st = m at *
      obtain ⟨r, st'⟩ := m
      cases r with
      | error e => exact k1
      | ok l =>
        have hp := k3 l rfl
        have hlen : l.length = fs.toList.length := by rw [← hp]; simp [pairs]
        refine ⟨(sumObj_inv E k1.1 ?_ ?_).1, k1.2⟩
        · intro h; rw [hlen]; apply hq2.1; rw [← hp]; simpa [pairs] using h
        · intro ty hty; rw [hlen, hp]; apply hq2.2
          rw [← hp]; simpa [pairs, Function.comp_def] using hty
    · intro hw
      obtain ⟨l, hl, hg⟩ := k2 hw.2.2
      generalize fs.build st = m at *
      obtain ⟨r, st'⟩ := m
      simp only at hl
      subst hl
      have hp := k3 l rfl
      have hlen : l.length = fs.toList.length := by rw [← hp]; simp [pairs]
      obtain ⟨o, c', ho, hgo⟩ := sumObj_good E hw hg k1.1
        (by intro h; rw [hlen]; apply hq2.1; rw [← hp]; simpa [pairs] using h)
        (by
          intro ty hty; rw [hlen, hp]; apply hq2.2
          rw [← hp]; simpa [pairs, Function.comp_def] using hty)
      simp only [ho]
      exact ⟨o, rfl, hgo⟩
theorem buildAll_inv (E : Env) : ∀ (fs : Fields) (st : St), ReqsAll E.A fs → SInv E st →
    SInv E (fs.build st).2 ∧ (WFs fs → ∃ l, (fs.build st).1 = .ok l ∧ GoodAll E.acc E.ex fs l) ∧
      ∀ l, (fs.build st).1 = .ok l → pairs l = fs.toList
  | .nil, st, _, hS => by
    unfold Fields.build
    refine ⟨hS, fun _ => ⟨[], rfl, trivial⟩, ?_⟩
    intro l h
    simp only [Except.ok.injEq] at h
    subst h; rfl
  | .cons k t fs, st, hq, hS => by
    unfold Fields.build
    obtain ⟨h1, h2⟩ := build_inv E t st hq.1 hS
    generalize t.build st = m at *
    obtain ⟨r, st'⟩ := m
    cases r with
    | error e =>
      refine ⟨h1, fun hw => ?_, by intro l h; simp at h⟩
      obtain ⟨o, ho, _⟩ := h2 hw.1
      simp at ho
    | ok o =>
      obtain ⟨h3, h4, h5⟩ := buildAll_inv E fs st' hq.2 h1
      simp only
      generalize fs.build st' = m at *
      obtain ⟨r, st''⟩ := m
      cases r with
      | error e =>
        refine ⟨h3, fun hw => ?_, by intro l h; simp at h⟩
        obtain ⟨o, ho, _⟩ := h4 hw.2
        simp at ho
      | ok l =>
        refine ⟨h3, fun hw => ?_, ?_⟩
        · obtain ⟨o', ho', hg⟩ := h2 hw.1
          simp only [Except.ok.injEq] at ho'
          subst ho'
          obtain ⟨l', hl', hgs⟩ := h4 hw.2
          simp only [Except.ok.injEq] at hl'
          subst hl'
          exact ⟨_, rfl, rfl, rfl, hg, hgs⟩
        · intro l' hl'
          simp only [Except.ok.injEq] at hl'
          subst hl'
          have := h5 l rfl
          simpa [pairs, Fields.toList] using this
end

theorem runHistory_inv (E : Env) (hist : List Ty) (h : ∀ t ∈ hist, Reqs E.A t) : SInv E (runHistory hist) := by
  unfold runHistory
  suffices H : ∀ (hist : List Ty) (st : St), (∀ t ∈ hist, Reqs E.A t) → SInv E st →
      SInv E (hist.foldl (fun st t => (t.build st).2) st) by
    apply H hist {} h
    exact ⟨by intro e he; simp at he, by simp⟩
  intro hist
  induction hist with
  | nil => intro st _ hS; exact hS
  | cons t hist ih =>
    intro st h hS
    rw [List.foldl_cons]
    exact ih _ (fun t ht => h t (by simp [ht])) (build_inv E t st (h t (by simp)) hS).1

end Peak
