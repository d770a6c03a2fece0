# Formal model of cdonovick/peak

Scope: the library `/repo/peak` and the simulators of several examples. The code was read as text; it was
never run. `properties.jsonl` lists the properties, `MANIFEST.json` maps them to theorems, `seeded/LOG.jsonl` records
the wrong programs the theorems were tested against.

## Layout

| module | contents |
|---|---|
| `Verif/Model/*.lean`  | the model, function by function, every definition citing file:lines |
| `Verif/Spec/*.lean`   | small independent specifications used in the statements |
| `Verif/Lemmas/*.lean` | helper lemmas |
| `Verif/Props/*.lean`  | the property theorems with their non-vacuity examples |

Names: the theorems of property `Cxx` are `Cxx_…`. A theorem ending in `_partial` has a hypothesis the property does not
have; its comment and the manifest note say which. A theorem `Cxx_violated…` proves that the code does not have the
property as stated, by a concrete witness.

## Modelling conventions

* Exceptions are values (`Except Err α`); a Python `dict` is an association list in insertion order; a mutable
  object is a state threaded through functions, and process-global caches are part of that state (`Process`).
* Class identity: every type in the model carries a number `cls`; two Python classes are the same class iff the
  model types are equal.
* `repr` strings used as sort keys are abstracted to natural numbers (only their order is used). `hash` values are parameters.
* A bit vector of the assemblers is a pair (size, value < 2^size), because the code computes sizes; the fixed-width examples use Lean's `BitVec`.
* An SMT formula is the predicate it denotes over assignments; the solver is a function parameter whose contract
  (a model it returns satisfies the query; if it returns none there is no model) is a hypothesis of the theorems that need it.
* Peak classes given to the mapper (IR and architecture) are arbitrary functions on the bits of their inputs, with arbitrary uses of black boxes.

## Per-property plan

* C01–C10 (assembler): shallow model of `_enum`, `_tuple`, `_sum`, `_field` as functions building an assembler object (a record
  of closures), driven by a mutual recursion over the type and threading the two process-global caches (`_validator_cache`, the instance cache).
  Proof: one invariant over states reachable by any history of constructions (`Lemmas/AsmGood`, `AsmUsed`, `AsmEnv`); C01–C07 are consequences, by
  induction on the type. C01 and C04 are proved for every process that does not use one sparse one-hot set of codes at two widths (`Spec/AsmWidths`).
* C11, C12 (validators): model of `_gen_is_valid` branch by branch with the cache. Exactness per branch; the code violates both properties.
* C13–C16 (assembler2), C17–C19 (AssembledADT): same type model, bit-vector level functions; refinement to the v1 functions.
* C20, C21 (auto_assembler, bitfield): recursive functions over the same types; round trip and injectivity. C20 also: the ranges of the returned layout, by induction over the path of a part.
* C22–C24, C26, C41: state machines, refinement to maps or histories by induction over operation lists.
* C25: the memo table with an arbitrary key equality, induction over call sequences.
* C27: instance trees, structural induction.
* C28, C29: list-level model of the enumerations; membership characterised by an independent predicate; Nodup.
* C30: bit patterns, `∃!`.
* C31: formula trees and their evaluation.
* C32, C38: recursion over types; forms and paths are related to the values they describe through `Spec/Forms` and `Spec/Raw`.
* C33: `IRMapper.solve` end to end (forms, bindings, formula, solver, rule). Soundness and completeness against `Spec/IRMapper`, which says what a correct
  rewrite rule is without mentioning formulas or forms. C33_decides_checked_partial and C33_any_mapping_partial drop the hypothesis that validators accept only members, which types like
  `OP` of C63 cannot meet; C33_any_mapping_partial says that each correct mapping is what some sound and complete solver gives. With constraints on
  leaves of the instruction the reduction is to `CanComputeCons` (C33_instruction_constraints, C55_instruction_constraints): the chosen instruction must hold allowed values there.
  Constraints on leaves that are not `Const` are quantified universally by the formula; `WithValues` in Spec/IRMapper says what a rule means then (the constrained
  leaves take any allowed values), and C33_sound_values_partial and C33_complete_values_partial are soundness and completeness in that reading; likewise for C55.
* C34: the CEGIS loop as a function of the bound over an arbitrary solver; soundness, progress, termination.
* C35: existence of a function graph versus the pairwise constraints the code generates.
* C36, C37, C39: `verify`, `RewriteRule` and constants.
* C40, C42, C49, C50: signatures, generated code, rounding modes: direct models.
* C43–C46, C51, C52 (RISC-V), C47, C48, C53 (PE): `BitVec` models of the simulators; specifications in integers.
* C54: `Multi` end to end, soundness and completeness against `Spec/Multi`, which runs a program of instructions.
* C55: `IRMapper` with `simple_formula=True` end to end, black boxes included, against the same `Spec/IRMapper`.
* C56: the Pico simulator as a refinement: each call of the model against an instruction-set specification in integers (`Spec/Pico`), then runs by induction.
* C57: `gen_mapping` with PE, module, instruction lists and solver as parameters; its permutations are related to the assignments of C28, the loops by induction.
* C58: the simulator with the widths of its values (`concat` makes them grow) against a machine on integers; simulation relation, one lemma per instruction, induction over calls; the test programs by step lemmas for all operands.
* C59: `mulDiv` over a parameter for the signed divisions of the library, in two readings (SMT-LIB and Python's floor division), against the table of the manual on integers; simulation and induction over steps as C44.
* C60: call bodies as syntax trees with returns, attributes and components; Python's evaluation as the specification, the straight-line code of the passes as the model; a relation between the two states by induction on the body, a typing discipline for the annotations, and a second induction that nothing raises.
* C61: the two example PEs and the instructions of `SmallIR` as `PeakObj`s, over the model of C33; the PE's function for every instruction word; an explicit rule for each instruction that is found; for the others, what any mapping would compute (one of 8 functions with an offset, with inputs or free values in two places) differs from the instruction at some of 81 points; then C33_decides_partial and C55_decides_partial. For arbitrary functions of words (C61_any_function): C33_instruction and C55_instruction reduce the search to `CanCompute` (some instruction value and wiring compute the function), which is then worked out for the PE.
* C62: `RegPE.__call__` over the register files of C43 and C51, for a program by induction against an abstract machine on numbers; the mappable PE on assembled instructions, both branches evaluated; for mapping, C33_instruction and C55_instruction, with `CanCompute` worked out from the wiring. `Initial(Word)` is a type of another class, so that it is never bound.
* C63: `gen_PE` for every width, against `Spec/LutPe`; the fields of an assembled instruction; for mapping, C33_instruction_bits and C55_instruction_bits, which reduce the search to `CanComputeRaw` (some bits for the instruction that pass `is_valid`). The enum `OP` is `Blind` (C05_violated_blind): every operation code passes, so `CanComputeRaw` is worked out for all codes. The reduction is also proved with black boxes on both sides (C55_instruction_boxes: `CanComputeBoxes`).
* C64: the PE and IR instructions with a box as `PeakObj`s with black boxes; what one instruction word computes (`val`), for every function of the boxes; C55_instruction_known, whose `CanComputeAcceptedBoxes` is worked out: the boxes are arbitrary, so a box's output can only come from a box of the same class on the same inputs (`box_eq`); the codes of `FPU_op` form several ranges, so every code passes, and code 1 acts as the square root.
* C65: `ConsProblem` instances for the two example PEs (constraint list a parameter); C33_instruction_constraints and C55_instruction_constraints reduce the answer to `CanComputeCons`, an instruction word accepted by the validator and obeying the constraints; a word is split into option, operation and offset or flag (`accepts_inst`, `obeys_iff`), its wiring into two distinct words (`wiring_of`, `of_wiring`, both directions), giving `Fits`.
* C66: the SMT simulator as a program on assembled bits (`RMap.smtCall`, every branch evaluated and then chosen), with the options of `Inst` in any order. RawGet: fields, options and `from_fields` of a type of any shape on a raw value. With these `call_of`: on the bits of any raw instruction it is `RV.mappable` of the decoded instruction, and on any bits it returns (`call_any`). Then C33_instruction_known and C55_instruction_known_plain, whose condition is worked out: pc and the old value of rd are free, so jumps, branches, loads, stores and rd = 0 compute nothing; the other instructions give `Fits`.
* C84: the same for examples/riscv_m, whose program counter has the same type as the registers, so that the mapper may also wire an input to it and read the next address: three places and two outputs. `wires_le` (at most three inputs), `complete` (a partial wiring can be completed), then per instruction and output its function, and back from each `Shape` to an instruction and wires.
* C85: the same for examples/riscv_ext. The branches of the base instructions are those of examples/riscv, so the lemmas of C66 on their decoding and those of C84 on wirings are reused; new are the option `Ext`, the counter on the bits of its tag (with C46 for the values) and the shape `count`.
* C86: types with modifiers (`FE.MTy`), `_create_path_to_adt` with its dictionary, and the checks on what a closure returns; the leaves are characterised by induction on the type against `LeafAt` and `Under`, which follow a path down a type. C86_mapper_input shows that the paths `MapPb` is given for `Const` types stand for the code's `const_paths`.
* C87: candidates satisfy what is asserted at the start, by induction on the loop; the vectors are compared with the values of 0, 1 and -1 in the sorts (`sortInt`).
* C88: the architecture of test_basic_rr as a `PeakObj` on assembled bits, both options of the instruction read; its function for every instruction (`res`); C33_instruction_consts and C55_instruction_consts reduce the answer to `CanComputeConsts`, which `BPe.can_iff` works out. With two word fields in one instruction a `Const` IR word could go to either, so these leaves are quantified both ways in the simple formula; C55_sound_up_to_places_partial and C55_instruction_consts_partial say that only the constants of such leaves may be wrong, and for functions that use the constant the only such leaf is the immediate that is not read.
* C89: the same architecture as the class given to `Multi` (`BPe.multiProblem`); on all bits it returns two words (`BPe.arch_typed`), so C54_sound_partial and C54_complete_partial apply without hypotheses on it (C89_multi). Programs on words are a separate specification (Spec/BasicPeMulti); an induction over the program relates running it to running the instructions (C89_found_iff, C89_returned). Not modelled: as for C54.
* C90: the adder/inverter of `test_simple` in tests/test_aadt_mapping.py as a `PeakObj` on assembled bits (Model/AddNotPe), for words of any width; C33_instruction_known and C55_instruction_known_plain reduce the answer to `CanComputeAccepted`, which `ANPe.can_iff` works out: an operand that is given no word must not matter, so sums need two words and complements one.
* C91: the PE of tests/test_black_box.py as three black boxes of C26 called in turn (Model/BoxPe); `BxPe.after_eq`, by induction on the history, gives what each holds in terms of the last outputs set and the last call that reached it (Spec/BoxPe).
* C92: `createFromLayout` (Model/Layout) on arbitrary layouts; insertion sort permutes and sorts, so the neighbour check equals in-word + pairwise disjoint; the slots are described by an invariant over the parts put in and read off by strong induction on the position.
* C93: the PE of `test_custom_rr` as a `PeakObj` on assembled bits (Model/CustomPe), words of any width; C36_verify_partial with `related_iff`/`agree_iff` for hand-made rules, C33_instruction_known / C55_instruction_known_plain with `CuPe.can_iff` for mapping.
* C94: the PE of `test_black_box_rr.test_simple` (Model/FpAddPe) as a `PeakObj` with one black box, words of any width; C55_instruction_known with boxes, `FaPe.core` for the quantification over what boxes compute, `FaPe.can_iff` and `fits_of`/`of_fits` for which instructions.
* C67: `DataConsProblem`: the instruction problem with constraints on leaves of the instruction and on data inputs. A rule the mapper returns is correct with every allowed value (C33_sound_values_partial), so it is one instruction and one wiring that compute the function for all allowed values (`InM.choice_of_rule_values`), and back (`InM.rule_of_choice_values`), giving C33_instruction_values and C55_instruction_values. For the example PEs `can_values` turns that into `FitsValues`.
* C68: `ConstProblem`: the instruction problem with `Const` IR inputs, which go to leaves of the instruction (`Feeds`); `Holds` says which instructions hold given constants there. `InM.choice_of_rule_consts` and `InM.rule_of_choice_consts` go between correct rules and `ComputesConsts`, giving C33_instruction_consts and C55_instruction_consts. For the PE of test_const `CPe.can_iff` works the condition out; the constant can go nowhere but into the immediate. Early outs (C33_early_out): no binding can exist, so the enumeration of C28 is empty and the solver is not asked.
* C69: examples/arm/asm.py builder by builder; `rol` on lists of bits is shown to be `rotateRight`. The exact conditions under which an immediate operand is right come from the lemma that every word `_imm` accepts is an 8-bit value rotated by an even number, and a check of all of these 4096 words by the kernel (the whole domain, not a sample). The words are those of the C21 model of peak/bitfield.py, with the options of the unions in any order (`Orders.Ok`). The word of every instruction is given as a sum of the operation, condition, flag and operand at their places (C69_words).
* C70: examples/pe, with the condition codes, table and mode registers of the C53/C48/C49 model (the code is the same text). A run over a list of calls is followed with the specification `stored`/`returned` of the mode registers (what earlier calls stored), by induction on the calls.
* C71: the demo PEs one by one; results and flags are specified on numbers (`resSpec`, `flagSpec`), the inverted operand as `2^16 - 1 - b`. That pe1, pe2, pe3 cannot subtract is a statement about all their instructions with witnesses per instruction.
* C72: classes as data (type, assembler, bit-vector type, direction), hwtypes' class cache making equal parameters one object; Python's `==` fallback and `~bool` are part of the model. `C72_instance` links the classes to the values of the C17 model.
* C73: Python expressions as trees, objects and operations as parameters; the pass and the two evaluations are recursive functions, the specification evaluates the given body with constants as codes. Induction over the body.
* C74: examples/pdp8/asm.py builder by builder, with keyword lists; the comments are a table of integer functions (Spec/Pdp8Asm.lean), and the instructions are run by the simulator of C58. Group 1 goes through the arithmetic of C58; the rest is case analysis and linear arithmetic.
* C75: examples/pe1/asm.py builder by builder; the meaning of the names is a table of integer functions (Spec/PE1Asm.lean); the PE is that of C53.
* C76: `Model/RegGen.lean` is a process with the cache of classes and a heap of register objects; what hwtypes decides (hashing, equality of initial values, `T(init)`, `isinstance`) is a parameter. The specification (`Spec/RegGen.lean`) is the list of uses of one object; the proof is an invariant over histories.
* C77: `Model/Construct.lean` has Python's binding of positional and keyword arguments and the `from_fields` of each kind of class over it; the specification (`Spec/Construct.lean`) says which calls pass which arguments. Binding is proved by induction, the values come from C19. Keywords are lists of pairs; a name given twice is a syntax error in Python and not modelled.
* C78: `Model/Assemble.lean` has function objects with attributes, classes with their lookup order, and the nested decorators of the families as changes of that state. The passes of ast_tools are a parameter as far as the attributes of the function they make are concerned; that they start from the source text of the function inside a wrapper (`inspect.getsource`) is trusted.
* C80, C81: `Model/RiscVAsmX.lean` has the builders of riscv_ext/asm.py, `get_fields` and `set_fields` on the instructions of both other examples, and the objects behind the two cached `ISA_fc` closures (a heap of namespaces, the two caches, the table CONSTRUCTORS), as a state machine over imports and uses; only the Python family is modelled there. Proved by an invariant over histories and from C45, C46, C44 and the closed form of opcodes (C02).
* C82, C83: `Model/Conv.lean` has `rebind_value`, `rebind_binding`, `strip_aadt` (values as Python or SMT vectors and bits with their class, constant or symbolic) and the local function `magmafy` of MagmaFamily.assemble; by cases on values and induction over bindings and annotations. `rebind_type` on a path element and `strip_modifiers` come from hwtypes and are modelled by their meaning. The same module has the constants of auto_assembler (C20_const).
* C79: `Model/RtlUtils.lean` makes the connections of `wrap_with_disassembler` a list of bit-to-bit wires; the layout is that of the modelled assembler. Magma's `wire`, `Flip` and the port types are trusted to connect bits of equal number.
* Later properties: see the comments at the head of their modules.

Every property is expressible in the model.

## What is modelled and what is not

Modelled: `assembler/assembler.py`, `assembler_abc.py`, `assembler_util.py`, `assembled_adt.py` (field access, comparison, `from_fields`, the Python side);
`assembler2/assembler.py`, `assembled_adt.py` (same); `auto_assembler.py` (Python functions); `bitfield.py`; `black_box.py`; `family.py` (equality and hash of families, the caches of register classes, Python registers and
memories, attribute access); `features.py`; `float.py` (dispatch on rounding modes); `ir.py`; `memory.py`; `register.py`; `peak.py`;
`mapper/formula_constructor.py`; `mapper/index_var.py`; `mapper/utils.py` (forms, bindings, SimplifyBinding); `mapper/mapper.py` (SMTMapper set-up, `IRMapper.solve` with both formulas,
`RewriteRule`, `verify`, `build_inputs`, black-box constraints, `external_loop_solve`); `mapper/multi.py`; `mapper/oldmapper.py` (`gen_mapping`);
`examples/riscv`, `riscv_ext`, `riscv_m`, `pe1`, `pico`, `pdp8` (sim.py; `asm.py` only as constructors); see MANIFEST.json for later additions.

Not modelled:
* magma and RTL generation (`MagmaFamily`, the magma branches of `family.py` and `assembled_adt.py`): they call libraries outside the repository;
* the AST rewriting of the library `ast_tools` as a transformation of syntax trees (it is outside /repo): C60 models the documented meaning of the three passes `_StdMix` applies (family.py:301) and proves the result equal to Python's meaning; everywhere else the model takes the Python meaning of the source, and for the SMT family the same meaning on symbolic values. Loop unrolling and macros are not modelled;
* pysmt and hwtypes themselves, whose operations are given their documented meaning (trusted base);
* IEEE arithmetic inside `float.py`;
* printing and debugging helpers, command-line examples.

Simplifications are stated in the comment of each definition. The main ones: type errors of the hwtypes constructors for arguments of a wrong Python class are not modelled unless the
property is about them; `repr` order is a parameter; enum members are modelled by name and code.

## Trusted base

* Lean 4.33 kernel; the axioms are listed below, none of our own; no `sorry`, `native_decide` or `bv_decide`.
* The reading of the Python source.
* hwtypes semantics (library not present in the sandbox; from knowledge of its source): `BitVector[n](i)` masks to n bits; integer operands of bit-vector operators are coerced to the
  vector's own width (masked); comparisons are unsigned, signed for `SIntVector`; slices follow list-slice semantics on bits, lowest first; `x.concat(y)` puts `x` in the low bits; shifts by the width or more give the fill bits;
  `Enum` members compare equal iff their values do (`Auto` by identity).
* For C33–C36: the contract of the SMT solver, which is a hypothesis of the theorems.

## Axioms

As reported by `#print axioms` for every theorem in the manifest:

* no axioms: C40_violated_no_output, C42_host, C49_violated_family, C49_violated_class, C49_violated_self, Pdp8.Asm.C74_violated_glk, FE.C86_strip.
* `propext`: Conv.C20_violated_const, C21_violated_tags, C21_violated_shift, C22_register_no_enable, C25_violated_subclass, C25_violated_not_transitive, C25_violated_kwargs, C25_py_eq_pyx, C26_violated, C27_cached, C40_violated_kwonly, C40_violated_surplus, C40_meta, RV.C52_exactly_one, Pico.C56_peak_flag_partial, Pico.C56_builders, RV.C59_violated_floor, RPe.C62_filled, Cl.C72_field_partial, Cl.C72_missing, Cl.C72_instance, Cl.C72_instance_option, Cl.C72_eq, Cl.C72_violated_ne, Cl.C72_ne_partial, Cl.C72_instance_ne, Cl.C72_violated_reserved, Cl.C72_violated_member, Cl.C72_flip, Ic.C73_violated_receiver, Ic.C73_violated_parameter, Ic.C73_violated_enclosing, Ic.C73_violated_shadow, RG.C76_violated_old, Fam.C78_untyped, Rtl.C79_violated_kinds, RV.C80_violated_fields, RV.C81_get_registers, Conv.C82_refused, Conv.C82_round_trip, Conv.C82_violated_class, Conv.C83_ports, FL.C92_single.
* `Quot.sound`, `propext`: C01_violated, C04_violated, C08_negative_rejected, C08_empty_rejected, C12_violated, C12_member_rejected, C16_empty_product, C20_bit_option_fails, C20_negative_enum_fails, C20_violated, Conv.C20_const, C21_tag_refused, C21_violated_enum, C21_unnumbered, Pico.C21_violated_pico_jmp, C22_register, C23_ram, C23_failed_access, C23_rom, C23_initial, C25_once, C25_family_key, C26_call, C26_reports, C26_positional, C26_no_call, C26_no_inputs, C27_violated_stale, C31_render, C32_forms_are_shapes, C32_violated, C32_wrong_type, C34_int_well_sorted, C35_succeeds, C38_violated, C38_build_inputs_refused, C39_violated, C39_partial, C40_outputs, C42_codes, RV.C43_x0_reads_zero, RV.C43_frame, RV.C43_smt_x0, RV.C44_violated_shift, RV.C44_violated_unwritten, RV.C44_violated_load, RV.C46_base, PE1.C48_lut, PE1.C48_mode, PE1.C48_pe, RV.C51_mappable, RV.C52_register, RV.C52_violated_sub, PE1.C53_violated_cond_alu, Pico.C56_init, Pico.C56_read, Pico.C56_poke_reg, Pico.C56_violated_peak_flag, Pico.C56_violated_peek_poke, Pdp8.C58_halt, Pdp8.C58_run_returns, Pdp8.C58_violated_snl, Pdp8.C58_violated_unwritten, Pdp8.C58_violated_page, Pdp8.C58_violated_jmp, Pdp8.C58_violated_isz, Rw.C60_call_partial, Rw.C60_run_partial, Rw.C60_total, Rw.C60_total_run, Rw.C60_register, Rw.C60_register_no_enable, Rw.C60_violated_component_under_condition, Rw.C60_violated_next_call, Rw.C60_violated_and, Rw.C60_violated_types, Rw.C60_violated_untaken_raise, LPe.C63_pe, LPe.C63_universal, CPe.C68_immediate, Arm.C69_registers, Arm.C69_violated_immediate, Arm.C69_violated_words, XPe.C70_violated_compare, XPe.C70_violated_cond_alu, Demo.C71_violated_carry, Demo.C71_no_subtract, Demo.C71_pe6, Demo.C71_signed_add, Demo.C71_alu, Cl.C72_in, Cl.C72_modified, Ic.C73_returns, Ic.C73_returnsAll, Pdp8.Asm.C74_skips, Pdp8.Asm.C74_violated_link, Pdp8.Asm.C74_combined_partial, Pdp8.Asm.C74_halt, Pdp8.Asm.C74_and, Pdp8.Asm.C74_tad, Pdp8.Asm.C74_dca, Pdp8.Asm.C74_isz, Pdp8.Asm.C74_jmp, Pdp8.Asm.C74_jms, Pdp8.Asm.C74_violated_address, PE1.Asm.C75_fields, RG.C76_violated_family, Ctor.C77_violated_sum, Ctor.C77_refused, Rtl.C79_by_name, RV.C80_builders_arguments, RV.C80_isa_partial, RV.C80_violated_isa, RV.C80_constructors, Conv.C82_value, Conv.C82_binding, Conv.C82_binding_total, Conv.C82_strip, FE.C86_leaves, FE.C86_const_paths, FE.C86_mapper_input, FE.C86_multi, FE.C86_mapper_partial, FE.C86_violated_tuple, C87_none, C87_violated_random, BxPe.C91_call, BxPe.C91_inputs, BxPe.C91_after_call, BxPe.C91_raised, BxPe.C91_py.
* `Classical.choice`, `Quot.sound`, `propext`: C01_round_trip_widths_partial, C01_round_trip_partial, C01_never_wrong, C02_opcode_fits, C03_assemble_injective, C04_assembled_is_valid_widths_partial, C04_assembled_is_valid_partial, C05_accepts_partial, C05_exact_iff, C05_is_valid_exact_partial, C05_violated, C05_violated_by_history, C05_violated_blind, C06_disassemble_sound, C07_product_layout, C07_product_partition, C07_union_layout, C08_enum_codes, C09_tags, C09_declaration_order, C09_opcode_order, C10_sub_extract, C11_validator_exact_partial, C11_several_ranges_accept_all, C11_violated, C11_members_accepted, C12_history_independent_partial, C13_same_opcode, C13_same_decoding, C14_round_trip2, C14_decode_exact, C15_extract_field, C15_match_extract_union, C15_match_enum, C16_from_fields_product_partial, C16_zero_width_field, C16_from_fields_union_partial, C16_zero_width_option, C16_violated, C17_field_bits, C17_option_bits, C17_field, C17_option, C17_field2, C17_option2, C17_rejects, C18_eq, C18_other_type, C19_rebuild_partial, C19_from_fields_product_partial, C19_zero_width_field, C19_empty_product, C19_from_fields_union_partial, C19_from_fields_union_reads, C19_tag_override, C19_zero_width_option, C19_violated, C19_one_field, C20_round_trip_partial, C20_injective_partial, C20_layout_partial, C21_size, C21_injective_partial, C21_field_range, C21_tag, Pico.C21_violated_pico, C23_addresses, C24_dunder, C24_read, C24_poke, C24_assign, C24_history, C24_class, C25_memo, C25_shipped_keys_partial, C26_keyword_partial, C27_black_boxes, C28_sound, C28_complete, C28_nodup, C28_none, C29_block, C29_multi, C30_valid_iff_unique, C30_decode, C30_reachable, C30_out_of_range, C30_width, C31_construct, C32_one_form_partial, C32_every_value_spelled, C32_value_partial, C32_constructed_value_partial, C32_violated_tagged, C33_early_out, C33_sound_values_partial, C33_complete_values_partial, C33_decides_values_partial, C33_sound_partial, C33_complete_partial, C33_decides_checked_partial, C33_any_mapping_partial, C33_decides_partial, C33_violated_constraint, C33_violated_no_const, C33_instruction_constraints, C33_instruction_bits, C33_any_instruction, C33_instruction, C33_instruction_values, C33_instruction_consts, C33_instruction_known, C33_violated_nested_const, RR.C33_right, C33_union_outputs, C34_sound, C34_progress, C34_exhausted, C34_decides, C35_uninterpreted, C36_violated_variant, C36_verify_partial, C36_verify_places_partial, C36_violated, C37_round_trip, C37_constants, C38_groups_partial, C38_constants_partial, C38_rawOf, C38_unbound_partial, C38_build_inputs_partial, C40_inputs, C40_rejects, C40_inputs_positional_partial, C40_typecheck_partial, C41_add, C41_history, RV.C44_step_partial, RV.C44_run_partial, RV.C45_set_get, RV.C45_set_rejects, RV.C45_get_range, RV.C45_get_set, RV.C45_immediate, RV.C46_popcnt, RV.C46_cnttz, RV.C46_cntlz, RV.C46_instruction, PE1.C47_comparisons, C49_generated_call_partial, C50_modes_partial, C50_violated, Fl.C50_names, Fl.C50_calls_partial, Fl.C50_fma_partial, Fl.C50_violated_modes, Fl.C50_violated_fma, Fl.C50_violated_predicates, Fl.C50_no_others, RV.C52_immediate_partial, PE1.C53_alu, PE1.C53_pe_partial, PE1.C53_fresh, PE1.C53_defaults, PE1.C53_violated_unsigned, PE1.C53_alu_flags, PE1.C53_violated_lte_min, C54_sound_partial, C54_complete_partial, C54_none, C54_violated_black_box, C54_arch_black_box, C55_sound_values_partial, C55_complete_values_partial, C55_decides_values_partial, C55_violated_constraint, C55_violated_unquantified_constraint, C55_instruction_constraints, C55_any_instruction, C55_instruction_boxes, C55_instruction_bits, C55_instruction, C55_instruction_values, C55_instruction_consts, C55_instruction_known, C55_instruction_known_plain, C55_violated_nested_const, C55_sound_up_to_places_partial, C55_instruction_consts_partial, C55_sound_up_to_constants_partial, C55_sound_no_overlap_partial, C55_sound_partial, C55_complete_partial, C55_decides_checked_partial, C55_any_mapping_partial, C55_decides_partial, C55_violated_overlap, C55_violated_nested, Pico.C56_step_partial, Pico.C56_run_partial, Pico.C56_run_unsigned_partial, Pico.C56_add32, Pico.C56_violated_sub32, Pico.C56_compare_partial, Pico.C56_unsigned_names, Pico.C56_violated_signed, Pico.C56_call_return, Pico.C56_constant, C57_assertion, C57_count, C57_sound_partial, C57_no_error, C57_complete_partial, C57_violated_duplicate, C57_violated_state, C57_violated_in_, Pdp8.C58_step_partial, Pdp8.C58_run_partial, Pdp8.C58_page_zero_partial, Pdp8.C58_run_stops, Pdp8.C58_prog_add, Pdp8.C58_prog_or, Pdp8.C58_prog_xor, Pdp8.C58_prog_cmp_partial, Pdp8.C58_violated_cmp, Pdp8.C58_violated_swap, Pdp8.C58_violated_auto, RV.C59_step_partial, RV.C59_run_partial, RV.C59_mappable, RV.C59_violated_smt, SPe.C61_small_ir_mapping, SPe.C61_small_ir_mapping_simple, SPe.C61_small_ir_ops, SPe.C61_any_function, SPe.C61_any_function_simple, SPe.C61_one_word, RPe.C62_step, RPe.C62_run, RPe.C62_mappable, RPe.C62_agree, RPe.C62_mapping, RPe.C62_mapping_simple, LPe.C63_agree, LPe.C63_mapping, LPe.C63_mapping_simple, LPe.C63_violated_opcode, FPe.C64_mapped, FPe.C64_test_rr, FPe.C64_violated_opcode, SPe.C65_mapped, SPe.C65_mapped_simple, SPe.C65_test_const_constraint, RMap.C66_agree, RMap.C66_mapped, RMap.C66_mapped_simple, RMap.C66_test_riscv, RMap.C66_violated_subi, SPe.C67_mapped, SPe.C67_mapped_simple, SPe.C67_more_values, SPe.C67_test_non_const_constraint, CPe.C68_mapped, CPe.C68_mapped_simple, CPe.C68_test_const, EO.C68_early_out_inputs, EO.C68_early_out_outputs, Arm.C69_raises, Arm.C69_data_immediate_partial, Arm.C69_ldst_immediate_partial, Arm.C69_violated_branch, Arm.C69_words, XPe.C70_pe_partial, XPe.C70_builders, XPe.C70_violated_inputs, Demo.C71_pe1, Demo.C71_pe2, Demo.C71_pe3, Demo.C71_pe4_partial, Demo.C71_pe5, Demo.C71_subtract, Ic.C73_codes_partial, Pdp8.Asm.C74_effects, Pdp8.Asm.C74_keywords1, Pdp8.Asm.C74_keywords_again, Pdp8.Asm.C74_keywords2, PE1.Asm.C75_results, PE1.Asm.C75_unsigned_partial, PE1.Asm.C75_violated_unsigned, PE1.Asm.C75_comparisons, PE1.Asm.C75_violated_neg, PE1.Asm.C75_modes, RG.C76_same, RG.C76_distinct, RG.C76_register, RG.C76_refused, Ctor.C77_product_partial, Ctor.C77_call_partial, Ctor.C77_tuple_partial, Ctor.C77_violated_name, Ctor.C77_tagged_partial, Ctor.C77_call_tagged_partial, Ctor.C77_tagged_default_partial, Ctor.C77_tagged_tag_partial, Ctor.C77_whole, Ctor.C77_violated_option, Ctor.C77_sum_partial, Ctor.C77_typed, Fam.C78_interface, Fam.C78_violated_typecheck, Rtl.C79_wrapped, RV.C80_builders, RV.C80_base_builders, RV.C80_base_immediate_partial, RV.C80_fields_partial, RV.C80_violated_opcodes, RV.C81_get_fields, RV.C81_set_rejects, RV.C81_set_get_partial, RV.C81_violated_set, RV.C81_builders, RV.C81_immediate_partial, RMM.C84_agree, RMM.C84_mapped, RMM.C84_mapped_simple, RMM.C84_violated_div, RXM.C85_agree, RXM.C85_mapped, RXM.C85_mapped_simple, FE.C86_const_fields, C87_initial_partial, C87_violated_minus_one, BPe.C88_mapped, BPe.C88_mapped_simple, BPe.C88_mapped_simple_const_partial, BPe.C88_test_basic, BPe.C88_violated_unused, BPe.C89_multi, BPe.C89_test_multi, BPe.C89_found_iff, BPe.C89_returned, BPe.C89_square, ANPe.C90_mapped, ANPe.C90_mapped_simple, FL.C92_refused, FL.C92_bits, CuPe.C93_verify, CuPe.C93_rule, CuPe.C93_mapped, CuPe.C93_mapped_simple, FaPe.C94_mapped, FaPe.C94_test.

## Disagreements found while modelling

Each item is backed by the theorem named.

Assemblers
* An enum or tag set whose codes form several ranges gets a validator that accepts every pattern (C05_violated, C11_several_ranges_accept_all, C11_violated): the generated condition joins the ranges so that it is always true. For a type without unions whose enums are all of this kind, `is_valid` accepts every bit vector, in every process (C05_violated_blind). More generally C05_accepts_partial says exactly which patterns pass, given by `Accepts` in Spec/Assembler, and C05_exact_iff for which types that is exact; C33_instruction_known and C55_instruction_known use it to say which functions are mapped without assuming exact validators. `OP` of `examples/PE_lut` is one: the mapper can return a rule whose operation is no member of `OP` (C63_violated_opcode); and so is `FPU_op` of `examples/fp_pe`: the mapper can return a rule for the square root with the code 1, which is no member (C64_violated_opcode).
* The validator cache is keyed by the codes and not by the width, so the validator of one type is used for another type with the same codes and another width (C01_violated, C04_violated, C05_violated_by_history, C12_violated, C12_member_rejected): results depend on which assemblers were built before, and values assembled by an assembler can be rejected by it.
* `from_fields` raises ValueError whenever a product has a zero-width field next to another, or a union has a single option or a zero-width option, in both generations (C16_zero_width_field, C16_zero_width_option, C16_empty_product, C19_zero_width_field, C19_zero_width_option, C19_empty_product).
* `auto_assembler`: a bare `Bit` option of a union cannot be encoded (C20_bit_option_fails); enum members with negative values collide (C20_negative_enum_fails).
* `auto_assembler` on a constant: a value other than the constant is not refused, the functions return a ValueError object instead of raising it (C20_violated_const).
* `rebind_value`: the class of a vector is lost, signed constants come back plain (C82_violated_class).
* `bitfield`: `size` of an enum is computed from the number of members, not their values (C21_violated_enum); equal tags are accepted (C21_violated_tags); a shift on a nested class moves it into its neighbour (C21_violated_shift).

Families, closures, black boxes, classes
* Equality of families compares classes with `isinstance` one way, so that PyFamily equals its subclasses, and is not transitive; a closure called for one of them returns what was built for another (C25_violated_subclass, C25_violated_not_transitive).
* Keyword arguments in another order are another cache key (C25_violated_kwargs).
* A black box called with keywords in another order than declared returns its inputs swapped (C26_violated).
* `get_black_boxes` is cached per object and misses later additions (C27_violated_stale).
* Keyword-only parameters without annotation are dropped (C40_violated_kwonly), surplus results accepted (C40_violated_surplus), a class without output cannot be type checked (C40_violated_no_output).
* Generated IR instructions capture the names `family`, `_fun_`, `self` (C49_violated_family, C49_violated_class, C49_violated_self).
* `float.py`: RDN, RUP and RMM raise AttributeError, fma with a constant mode raises NameError (C50_violated, C50_violated_modes, C50_violated_fma). Host methods with one operand that return a `Bit` (`fp_is_zero` and the like in hwtypes) get closures that call `reinterpret_as_bv` on the bit: AttributeError (C50_violated_predicates).

Mapper
* `SMTForms` raises on types with zero-width fields or one-option unions (C32_violated); with a value given it raises KeyError on every type with a `TaggedUnion` inside (C32_violated_tagged).
* A path constraint on a field that is not `Const` gives a rule with an arbitrary constant (C33_violated_constraint); an architecture without a `Const` field raises AssertionError (C33_violated_no_const). A `Const` enum inside a field that is not itself `Const` may be given a code that is no member's, and `solve` raises ValueError although there is a correct rule, with either formula (C33_violated_nested_const, C55_violated_nested_const).
* `Multi` takes every input of the IR instruction exactly once, so for the square of a word it finds no single instruction although one exists (C89_square).
* With `simple_formula=True` the constants of `Const` leaves that could also hold a `Const` IR input are read off variables the formula replaced: on the architecture of test_basic_rr an IR instruction with an unused `Const` input that returns a fixed word may be mapped to the load of any word (C88_violated_unused; C55_instruction_consts_partial says how far rules can be trusted).
* A closure that returns a tuple, which `_get_peak_cls` is written for, makes `ArchMapper` raise AttributeError: `path_to_adt` reads `input_t` of the tuple (C86_violated_tuple).
* `verify` raises for rules that read an IR input twice (C36_violated); for outputs with unions it does not compare the tags (C36_violated_variant); its free variables range over enum codes no member has.
* `SimplifyBinding` raises on an unbound leaf that is the only leaf of a union (C38_violated); C38_unbound_partial says exactly when.
* `_int_to_pysmt` reduces integers modulo the width instead of 2^width (C39_violated). So the initial vector of -1 is width-1 and the random vectors stay below the width: candidates they should exclude are tried (C87_violated_minus_one, C87_violated_random).
* `Multi` leaves the outputs of black boxes in the IR existential, so that it maps them to constants (C54_violated_black_box), and raises AttributeError for black boxes in the architecture (C54_arch_black_box). It only looks for programs that read every IR input exactly once.
* With `simple_formula=True` a `Const` leaf that can be bound and can be free gets an arbitrary constant (C55_violated_overlap), and IR instructions with a product among their outputs are never mapped (C55_violated_nested).
* With `simple_formula=True` a constrained leaf that is not `Const` also gets an arbitrary constant (C55_violated_constraint). If it belongs to a form without candidate bindings its variable is not quantified universally, although the formula assumes the constraint on it: the solver falsifies the assumption and any wrong rule is accepted (C55_violated_unquantified_constraint).
* The `Const` checks in the constructor of `RewriteRule` never fire.
* `gen_mapping` reads attributes `_peak_inputs_` and `_peak_outputs_` that nothing in the repository sets, so it raises AttributeError for every class the repository can make; the theorems take these attributes as given. It makes all its calls on one PE, so that for a PE with state it yields mappings that do not hold (C57_violated_state); it yields the same mapping several times, and counts the repetitions (C57_violated_duplicate); an input named `in_` is called `in` (C57_violated_in_).

Examples
* families: a component called under a condition (`if c: return self.reg(x)`) is called unconditionally after the rewriting, so its state differs afterwards from that of the Python class (C60_violated_component_under_condition, C60_violated_next_call); `and` of bit vectors is bitwise after it (C60_violated_and); branches that are not taken can raise (C60_violated_types, C60_violated_untaken_raise).
* riscv_m: with `bvsdiv` of SMT-LIB a negative number divided by 0 is 1, not -1 (C59_violated_smt); with Python's `//` and `%` the signed division rounds down (C59_violated_floor). The source of hwtypes was not available, so the model has both readings.
* ARM: `_imm` cuts the 8-bit value to 4 bits, rotates right although the rotation of the operand is to the right as well, and `data` takes its two results in the wrong order, so an immediate operand of a data instruction is right only for 0, and one of a load or store only below 16 (C69_data_immediate_partial, C69_ldst_immediate_partial, C69_violated_immediate). The shifts of examples/arm/isa.py are added to the positions `encode` computes, so `ra` and `rb` land on the same bits (C69_violated_words) and the words of branches are wider than 32 bits (C69_violated_branch).
* PDP-8 builders: `szl` and `snl` are exchanged on the simulator (C74_violated_link), `glk` passes `rol`, which `opr1` does not have, and always raises TypeError (C74_violated_glk), and an address of 128 or more is silently reduced modulo 128 (C74_violated_address).
* examples/pe: every `eval` returns carry 0 and overflow 0, so after `sub` the code UGE is never true and SLT is only the sign of the difference (C70_violated_compare); `Cond.ALU` gives a 16-bit word as the 1-bit output (C70_violated_cond_alu); `gen_pe(n)` takes any `n`, but the instruction has two modes and `eval` two operands, so every call raises unless `n` is 2 (C70_violated_inputs).
* examples/demo_pes/pe4/sim.py:21 overwrites the carry of the addition with 0, so flag C is never set (C71_violated_carry).
* Assembled classes: `__ne__` is `~(cls == other)`, which for the `bool` that comparing two assembled classes gives is -1 or -2, so `cls != cls` is true (C72_violated_ne). `RESERVED_NAMES` is never used: a field called `adt_t` or `bv_type` is accepted and `cls.adt_t` is not its class (C72_violated_reserved). `AssembledADT[E, ...].member` asks the assembler for the member itself, which raises TypeError, so the comparison in lines 208-211 (which also uses attributes that do not exist) is never reached (C72_violated_member).
* `ISABuilderAssembler` passes `_locals` as globals and `_globals` as locals to `eval`, so a global hides a type of the enclosing function (C73_violated_shadow); it does not look inside the receiver of an attribute (C73_violated_receiver); the new function is compiled at module level and loses the names of enclosing functions (C73_violated_enclosing).
* PDP-8: `snl` and `szl` test the opposite (C58_violated_snl). The page is put above a full word, so that every reference to the current page raises IndexError when the instruction is not on page zero, and a jump leaves the memory (C58_violated_page, C58_violated_jmp). `iac` does not carry into the link, so that the comparison of test_prog_cmp is wrong for a first operand 0 and every second operand (C58_violated_cmp). Cells hold the int 0 until written: `tad` of such a cell raises AttributeError, and a counter in one never wraps, so that a loop ending when it is zero does not end (C58_violated_unwritten, C58_violated_isz). `twice` without a rotation does nothing although isa.py:47 calls it a byte swap (C58_violated_swap); there is no auto-indexing (C58_violated_auto). Not modelled: `asm.glk` passes a keyword `rol` that `opr1` does not have, and raises TypeError.
* Registers: the cache of `gen_register` has the class of the family in its key, not the family; a second family of the same class with other passes gets the register assembled by the first (C76_violated_family). `gen_register2` stores its initial value unconverted, so that with the default the first call returns the int 0 (C76_violated_old).
* Constructors: `RESERVED_NAMES` is never enforced, so a product with a field `default_bv` is accepted and that field cannot be passed by name (C77_violated_name), and a tagged union option `default_bv` or `tag_bv` can never be built (C77_violated_option). The constructor of a `Sum` takes the value in the Python family and the class and the value in the others (C77_violated_sum).
* Checks: `typecheck=True` has no effect in the families that rewrite (C78_violated_typecheck), and `ROM` and `RAM`, which have no types, cannot be assembled by them (C78_untyped).
* RISC-V extension: `riscv_ext.isa.ISA_fc` assigns `Inst` in the namespace object cached by `riscv.isa.ISA_fc`; from then on the base example's `isa.Inst` has a tenth option and the opcodes of all options sorting after `Ext` are larger by one (C80_violated_isa, C80_violated_opcodes). `get_fields` and `set_fields` fail on extension instructions (C80_violated_fields).
* RISC-V with multiplication: `set_fields` raises KeyError on every multiplication and division (C81_violated_set).
* `examples/min_pe` imports a name `assemble` that `peak` does not export, and `mapper_demo.py` a package that does not exist; neither can be imported, and neither is modelled.
* Wrapping: `wrap_with_disassembler` reads the keys of the layout as attribute names, which they are for products only: a sum, tuple or enum instruction raises TypeError, a bit-vector instruction leaves the port of the PE unconnected (C79_violated_kinds). Its `disassembler` argument is not used.
* Pico: the overflow flag of `sub` and `sbc` is computed with the subtrahend not complemented, so that signed comparisons are wrong, e.g. for all non-negative operands of which the first is smaller (C56_violated_signed). `sub` clears the carry for a borrow but `sbc` subtracts the carry: a 32-bit subtraction is wrong for all operands (C56_violated_sub32). `peak_flag('V')` returns the carry (C56_violated_peak_flag); `poke_flag`, `poke_pc`, `poke_mem` always raise a TypeError. The two registers of an ALU instruction are encoded in the same bits (C21_violated_pico), and the words do not fit 16 bits (C21_violated_pico_jmp; the test is skipped).
* RISC-V: register shifts use the whole register (C44_violated_shift), reading a register that was not written raises KeyError (C44_violated_unwritten), loads and stores do nothing (C44_violated_load); `asm_SUB(imm=-2048)` subtracts 2048 less (C52_violated_sub).
* RISC-V mapping: sim.py asserts that OP_IMM never subtracts, with the comment that ADDI can do the same; -2048 has no opposite in 12 bits, and the SMT family drops asserts. The mapper maps `x + 2048` to the instruction that subtracts -2048, and the Python simulator raises AssertionError on it (C66_violated_subi).
* RISC-V mapping with division: `bvsdiv` in SMT-LIB gives 1 for a negative number divided by 0 and the manual -1. No rule is found for the division of the manual (C84_violated_div).
* PE: the 1-bit output for `Cond.ALU` is 16 bits wide (C53_violated_cond_alu); `if signed` tests an enum member, which is true for `unsigned` unless hwtypes enums define their truth value (C53_violated_unsigned); the 1-bit result of `LTE_Min` is the comparison `a >= b` (C53_violated_lte_min, unused by the PE); the branch `ALU.Neg` names a member that does not exist.
* PE builders: `neg` is the same configuration as `sub` and returns a single operand unchanged (C75_violated_neg).
