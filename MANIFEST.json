{
 "claims": [
  {
   "property": "C01",
   "status": "partial",
   "theorems": [
    "Peak.C01_round_trip_widths_partial",
    "Peak.C01_round_trip_partial",
    "Peak.C01_never_wrong",
    "Peak.C01_violated"
   ],
   "note": "Round trip for all types, values and histories in which no sparse one-hot set of codes is used at two widths (in particular without sparse one-hot tag sets); negation with witness (validator cache ignores width); for all histories a returned value is never wrong."
  },
  {
   "property": "C02",
   "status": "proved",
   "theorems": [
    "Peak.C02_opcode_fits"
   ],
   "note": "All types, values, histories."
  },
  {
   "property": "C03",
   "status": "proved",
   "theorems": [
    "Peak.C03_assemble_injective"
   ],
   "note": "All types, pairs of values, pairs of histories."
  },
  {
   "property": "C04",
   "status": "partial",
   "theorems": [
    "Peak.C04_assembled_is_valid_widths_partial",
    "Peak.C04_assembled_is_valid_partial",
    "Peak.C04_violated"
   ],
   "note": "As C01; negation with witness."
  },
  {
   "property": "C05",
   "status": "partial",
   "theorems": [
    "Peak.C05_accepts_partial",
    "Peak.C05_exact_iff",
    "Peak.C05_is_valid_exact_partial",
    "Peak.C05_violated",
    "Peak.C05_violated_by_history",
    "Peak.C05_violated_blind"
   ],
   "note": "What is_valid accepts is determined exactly (C05_accepts_partial) in processes whose types have enums with a code other than 0 and unions of at least two options with distinct types, in any order of construction; it is exact just for the types without a multi-range enum (C05_exact_iff). Otherwise: exact for types with honest validators (Checkable) after histories of such types; negations: multi-range enums accept everything, and width-0 validators poison the cache."
  },
  {
   "property": "C06",
   "status": "proved",
   "theorems": [
    "Peak.C06_disassemble_sound"
   ],
   "note": "All types, bit patterns, histories."
  },
  {
   "property": "C07",
   "status": "proved",
   "theorems": [
    "Peak.C07_product_layout",
    "Peak.C07_product_partition",
    "Peak.C07_union_layout"
   ],
   "note": "Products and unions."
  },
  {
   "property": "C08",
   "status": "proved",
   "theorems": [
    "Peak.C08_enum_codes",
    "Peak.C08_negative_rejected",
    "Peak.C08_empty_rejected"
   ],
   "note": "Codes, distinctness, rejection of negative and empty enums."
  },
  {
   "property": "C09",
   "status": "proved",
   "theorems": [
    "Peak.C09_tags",
    "Peak.C09_declaration_order",
    "Peak.C09_opcode_order"
   ],
   "note": "Tags 0..n-1; independence of declaration order of tags and whole opcodes when printed forms differ."
  },
  {
   "property": "C10",
   "status": "proved",
   "theorems": [
    "Peak.C10_sub_extract"
   ],
   "note": "All paths."
  },
  {
   "property": "C11",
   "status": "partial",
   "theorems": [
    "Peak.C11_validator_exact_partial",
    "Peak.C11_several_ranges_accept_all",
    "Peak.C11_violated",
    "Peak.C11_members_accepted"
   ],
   "note": "Exact outside the several-ranges class; on that class every pattern is accepted (proved negation)."
  },
  {
   "property": "C12",
   "status": "partial",
   "theorems": [
    "Peak.C12_violated",
    "Peak.C12_member_rejected",
    "Peak.C12_history_independent_partial"
   ],
   "note": "History independent when widths agree; negation with witnesses otherwise."
  },
  {
   "property": "C13",
   "status": "proved",
   "theorems": [
    "Peak.C13_same_opcode",
    "Peak.C13_same_decoding"
   ],
   "note": "All types, values and histories; also agreement of decoding."
  },
  {
   "property": "C14",
   "status": "proved",
   "theorems": [
    "Peak.C14_round_trip2",
    "Peak.C14_decode_exact"
   ],
   "note": "All types and values."
  },
  {
   "property": "C15",
   "status": "proved",
   "theorems": [
    "Peak.C15_extract_field",
    "Peak.C15_match_extract_union",
    "Peak.C15_match_enum"
   ],
   "note": "Products by name and position; unions by name and type; enums by member."
  },
  {
   "property": "C16",
   "status": "partial",
   "theorems": [
    "Peak.C16_from_fields_product_partial",
    "Peak.C16_zero_width_field",
    "Peak.C16_empty_product",
    "Peak.C16_from_fields_union_partial",
    "Peak.C16_zero_width_option",
    "Peak.C16_violated"
   ],
   "note": "Products and unions with parts of positive width; general negations for zero-width parts, one-option unions and the empty product."
  },
  {
   "property": "C17",
   "status": "proved",
   "theorems": [
    "Peak.C17_field_bits",
    "Peak.C17_option_bits",
    "Peak.C17_field",
    "Peak.C17_option",
    "Peak.C17_field2",
    "Peak.C17_option2",
    "Peak.C17_rejects"
   ],
   "note": "Both generations of AssembledADT; all types, values, fields and processes; for arbitrary bits in the first generation (C17_field_bits, C17_option_bits)."
  },
  {
   "property": "C18",
   "status": "proved",
   "theorems": [
    "Peak.C18_eq",
    "Peak.C18_other_type"
   ],
   "note": "Comparison with assembled, raw and bit-vector operands."
  },
  {
   "property": "C19",
   "status": "partial",
   "theorems": [
    "Peak.C19_rebuild_partial",
    "Peak.C19_from_fields_product_partial",
    "Peak.C19_zero_width_field",
    "Peak.C19_empty_product",
    "Peak.C19_from_fields_union_partial",
    "Peak.C19_from_fields_union_reads",
    "Peak.C19_tag_override",
    "Peak.C19_zero_width_option",
    "Peak.C19_violated",
    "Peak.C19_one_field"
   ],
   "note": "Products and unions with parts of positive width, fields raw or assembled, default fill and tag override, also for fields read from arbitrary bits (C19_rebuild_partial); general negations for zero-width parts."
  },
  {
   "property": "C20",
   "status": "partial",
   "theorems": [
    "Peak.C20_round_trip_partial",
    "Peak.C20_injective_partial",
    "Peak.C20_bit_option_fails",
    "Peak.C20_negative_enum_fails",
    "Peak.C20_violated",
    "Peak.C20_layout_partial",
    "Peak.Conv.C20_const",
    "Peak.Conv.C20_violated_const"
   ],
   "note": "Round trip, injectivity and the layout are proved for every well-formed type with no bare Bit option of a union and no negative enum values; both exceptions are shown to violate the property (C20_bit_option_fails, C20_negative_enum_fails). Constants in place of types are exact (C20_const), but other values are answered with an exception object that is returned, not raised (C20_violated_const)."
  },
  {
   "property": "C21",
   "status": "partial",
   "theorems": [
    "Peak.C21_size",
    "Peak.C21_injective_partial",
    "Peak.C21_field_range",
    "Peak.C21_tag",
    "Peak.C21_tag_refused",
    "Peak.C21_violated_enum",
    "Peak.C21_violated_tags",
    "Peak.C21_violated_shift",
    "Peak.C21_unnumbered",
    "Peak.Pico.C21_violated_pico",
    "Peak.Pico.C21_violated_pico_jmp"
   ],
   "note": "All types whose declared sizes are honest, both field orders; the unchecked cases (enum values wider than clog2(count), duplicate tags, nested bitfield shifts) are shown to collide. The tag decorator takes exactly one number for each option and these become the tags, of this class only, with a tag field wide enough (C21_tag, C21_tag_refused); it does not ask that they differ."
  },
  {
   "property": "C22",
   "status": "proved",
   "theorems": [
    "Peak.C22_register",
    "Peak.C22_register_no_enable"
   ],
   "note": "All call sequences, with and without enable, prev included."
  },
  {
   "property": "C23",
   "status": "proved",
   "theorems": [
    "Peak.C23_ram",
    "Peak.C23_failed_access",
    "Peak.C23_rom",
    "Peak.C23_initial",
    "Peak.C23_addresses"
   ],
   "note": "All access sequences, depths, contents; negative (signed) addresses count from the end, as stated in C23_addresses."
  },
  {
   "property": "C24",
   "status": "proved",
   "theorems": [
    "Peak.C24_dunder",
    "Peak.C24_read",
    "Peak.C24_poke",
    "Peak.C24_assign",
    "Peak.C24_history",
    "Peak.C24_class"
   ],
   "note": "All objects, names and access histories; aliasing registers included."
  },
  {
   "property": "C25",
   "status": "partial",
   "theorems": [
    "Peak.C25_memo",
    "Peak.C25_once",
    "Peak.C25_family_key",
    "Peak.C25_shipped_keys_partial",
    "Peak.C25_violated_subclass",
    "Peak.C25_violated_not_transitive",
    "Peak.C25_violated_kwargs",
    "Peak.C25_py_eq_pyx"
   ],
   "note": "All call sequences for keys with coherent equality, which holds for the shipped families (given hashes of assembling families are not 0); negations: subclasses of PyFamily share results, family equality is not transitive, keyword order changes the key."
  },
  {
   "property": "C26",
   "status": "partial",
   "theorems": [
    "Peak.C26_call",
    "Peak.C26_reports",
    "Peak.C26_positional",
    "Peak.C26_keyword_partial",
    "Peak.C26_violated",
    "Peak.C26_no_call",
    "Peak.C26_no_inputs"
   ],
   "note": "All interleavings for positional calls; keyword calls in declaration order; negation for keyword calls in another order (inputs come back swapped)."
  },
  {
   "property": "C27",
   "status": "partial",
   "theorems": [
    "Peak.C27_black_boxes",
    "Peak.C27_violated_stale",
    "Peak.C27_cached"
   ],
   "note": "All instance trees that do not change; negation for objects changed after the first call (cached result)."
  },
  {
   "property": "C28",
   "status": "proved",
   "theorems": [
    "Peak.C28_sound",
    "Peak.C28_complete",
    "Peak.C28_nodup",
    "Peak.C28_none"
   ],
   "note": "All type-correct complete bindings, each exactly once."
  },
  {
   "property": "C29",
   "status": "proved",
   "theorems": [
    "Peak.C29_block",
    "Peak.C29_multi"
   ],
   "note": "Multi-instruction bindings: exactly the feed-forward ones, for any number of blocks."
  },
  {
   "property": "C30",
   "status": "proved",
   "theorems": [
    "Peak.C30_valid_iff_unique",
    "Peak.C30_decode",
    "Peak.C30_reachable",
    "Peak.C30_out_of_range",
    "Peak.C30_width"
   ],
   "note": "Both index encodings, any number of indices."
  },
  {
   "property": "C31",
   "status": "proved",
   "theorems": [
    "Peak.C31_render",
    "Peak.C31_construct"
   ],
   "note": "Every formula tree; ill-formed constructions raise."
  },
  {
   "property": "C32",
   "status": "partial",
   "theorems": [
    "Peak.C32_one_form_partial",
    "Peak.C32_every_value_spelled",
    "Peak.C32_forms_are_shapes",
    "Peak.C32_violated",
    "Peak.C32_wrong_type",
    "Peak.C32_value_partial",
    "Peak.C32_constructed_value_partial",
    "Peak.C32_violated_tagged"
   ],
   "note": "Proved for the types whose values can be put together from fields (Buildable: no zero-width field next to others, no one-option unions); for other types the code raises (C32_violated). Also for the call with a value given, for types without TaggedUnions (C32_value_partial); for types with a TaggedUnion inside that call always raises KeyError (C32_violated_tagged)."
  },
  {
   "property": "C33",
   "status": "partial",
   "theorems": [
    "Peak.C33_early_out",
    "Peak.C33_sound_values_partial",
    "Peak.C33_complete_values_partial",
    "Peak.C33_decides_values_partial",
    "Peak.C33_sound_partial",
    "Peak.C33_complete_partial",
    "Peak.C33_decides_checked_partial",
    "Peak.C33_any_mapping_partial",
    "Peak.C33_decides_partial",
    "Peak.C33_violated_constraint",
    "Peak.C33_violated_no_const",
    "Peak.C33_instruction_constraints",
    "Peak.C33_instruction_bits",
    "Peak.C33_any_instruction",
    "Peak.C33_instruction",
    "Peak.C33_instruction_values",
    "Peak.C33_instruction_consts",
    "Peak.C33_instruction_known",
    "Peak.C33_violated_nested_const",
    "Peak.RR.C33_right",
    "Peak.C33_union_outputs"
   ],
   "note": "Soundness (C33_sound_partial): any returned rule is a well-typed mapping, respects the path constraints and is correct for every input, for the default formula and Const-only constraints. Outputs with unions are never mapped (C33_union_outputs). Completeness (C33_complete_partial): when a correct mapping over the enumerated bindings exists a complete solver yields one, given union-free outputs, an architecture total on arbitrary bits and no black boxes. Where only whole fields are Const and the validators are exact, the mapper decides whether a correct mapping exists and never raises (C33_decides_partial). Violations proved: constraints on non-Const paths may give a wrong rule, architectures without a Const field raise AssertionError, Const enums inside a field that is not Const may make solve raise ValueError (C33_violated_nested_const). Missing: simple_formula=True (C55), black boxes in the mapper (the code rejects them). Constraints on inputs that are not Const: the value in the rule at such an input is arbitrary (C33_violated_constraint); with any combination of allowed values there the rule is a correct mapping (C33_sound_values_partial), and if some mapping is correct for all of them a rule is found (C33_complete_values_partial). For the usual problem, one Const instruction and flat data inputs and outputs, the mapper finds a rule exactly when some instruction and wiring computes the IR function (C33_instruction), also with constraints on leaves of the instruction (C33_instruction_constraints)."
  },
  {
   "property": "C34",
   "status": "proved",
   "theorems": [
    "Peak.C34_int_well_sorted",
    "Peak.C34_sound",
    "Peak.C34_progress",
    "Peak.C34_exhausted",
    "Peak.C34_decides"
   ],
   "note": "For every solver meeting the stated contract (models satisfy the assertions, unsat answers are right), every formula, seed and bound. The solver itself is in the trusted base."
  },
  {
   "property": "C35",
   "status": "proved",
   "theorems": [
    "Peak.C35_uninterpreted",
    "Peak.C35_succeeds"
   ],
   "note": "The consistency condition for every pair of uses of a black box, and the condition for success."
  },
  {
   "property": "C36",
   "status": "partial",
   "theorems": [
    "Peak.C36_violated_variant",
    "Peak.C36_verify_partial",
    "Peak.C36_verify_places_partial",
    "Peak.C36_violated"
   ],
   "note": "Proved for rules whose binding fits the input types and reads every IR leaf exactly once, with at least one bound output and union-free outputs; a rule that reads an IR input twice makes verify raise (C36_violated). For outputs with unions verify decides whether the bits in the places of the bound leaves agree (C36_verify_places_partial), which is not whether the outputs agree: tags are not compared (C36_violated_variant). Enum leaves range over all bit patterns. The solver is assumed correct."
  },
  {
   "property": "C37",
   "status": "proved",
   "theorems": [
    "Peak.C37_round_trip",
    "Peak.C37_constants"
   ],
   "note": "Leaf path types; constants given as bit vectors, bits, ints and enum members."
  },
  {
   "property": "C38",
   "status": "partial",
   "theorems": [
    "Peak.C38_groups_partial",
    "Peak.C38_constants_partial",
    "Peak.C38_rawOf",
    "Peak.C38_violated",
    "Peak.C38_unbound_partial",
    "Peak.C38_build_inputs_partial",
    "Peak.C38_build_inputs_refused"
   ],
   "note": "Proved for types whose values can be put together from fields (Buildable), with and without Unbound entries, and for build_inputs. With Unbound entries SimplifyBinding returns exactly when no union has an Unbound leaf for its only leaf (C38_unbound_partial; C38_violated is the general failure), and build_inputs never passes any."
  },
  {
   "property": "C39",
   "status": "partial",
   "theorems": [
    "Peak.C39_violated",
    "Peak.C39_partial"
   ],
   "note": "Violated as stated: bit-vector constants are reduced modulo the width (C39_violated, for every width). Proved for Booleans and for integers from 0 below the width."
  },
  {
   "property": "C40",
   "status": "partial",
   "theorems": [
    "Peak.C40_inputs",
    "Peak.C40_rejects",
    "Peak.C40_inputs_positional_partial",
    "Peak.C40_violated_kwonly",
    "Peak.C40_outputs",
    "Peak.C40_typecheck_partial",
    "Peak.C40_violated_surplus",
    "Peak.C40_violated_no_output",
    "Peak.C40_meta"
   ],
   "note": "All signatures and results; negations: unannotated keyword-only parameters are dropped silently, surplus results accepted, classes without output cannot be checked; argument types are never checked."
  },
  {
   "property": "C41",
   "status": "proved",
   "theorems": [
    "Peak.C41_add",
    "Peak.C41_history"
   ],
   "note": "All sequences of additions."
  },
  {
   "property": "C42",
   "status": "proved",
   "theorems": [
    "Peak.C42_host",
    "Peak.C42_codes"
   ],
   "note": "All modes and codes."
  },
  {
   "property": "C43",
   "status": "proved",
   "theorems": [
    "Peak.RV.C43_x0_reads_zero",
    "Peak.RV.C43_frame",
    "Peak.RV.C43_smt_x0"
   ],
   "note": "Reads of x0 give zero, writes of x0 change nothing, and a step changes no register other than its destination, on both register files."
  },
  {
   "property": "C44",
   "status": "partial",
   "theorems": [
    "Peak.RV.C44_step_partial",
    "Peak.RV.C44_run_partial",
    "Peak.RV.C44_violated_shift",
    "Peak.RV.C44_violated_unwritten",
    "Peak.RV.C44_violated_load"
   ],
   "note": "Proved against an integer ISA specification for one step and for runs of any length, under Covered: the instruction is not a load or store, register shift amounts are below 32 and source registers have been written. Each exclusion is a proved violation."
  },
  {
   "property": "C45",
   "status": "proved",
   "theorems": [
    "Peak.RV.C45_set_get",
    "Peak.RV.C45_set_rejects",
    "Peak.RV.C45_get_range",
    "Peak.RV.C45_get_set",
    "Peak.RV.C45_immediate"
   ],
   "note": "set/get round trips, out-of-range immediates rejected, and the immediate's effect is the sign extended one."
  },
  {
   "property": "C46",
   "status": "proved",
   "theorems": [
    "Peak.RV.C46_popcnt",
    "Peak.RV.C46_cnttz",
    "Peak.RV.C46_cntlz",
    "Peak.RV.C46_instruction",
    "Peak.RV.C46_base"
   ],
   "note": "popcnt, cnttz and cntlz against counting on the list of bits, alone and as executed instructions; base instructions are unaffected by the extension."
  },
  {
   "property": "C47",
   "status": "proved",
   "theorems": [
    "Peak.PE1.C47_comparisons"
   ],
   "note": "All ten comparison codes after Sub, signed and unsigned."
  },
  {
   "property": "C48",
   "status": "proved",
   "theorems": [
    "Peak.PE1.C48_lut",
    "Peak.PE1.C48_mode",
    "Peak.PE1.C48_pe"
   ],
   "note": "LUT indexing and the mode register over any history; the PE's five registers."
  },
  {
   "property": "C49",
   "status": "partial",
   "theorems": [
    "Peak.C49_generated_call_partial",
    "Peak.C49_violated_family",
    "Peak.C49_violated_class",
    "Peak.C49_violated_self"
   ],
   "note": "All names except self/family/_fun_ as inputs and family/_fun_ as class names; negations for those."
  },
  {
   "property": "C50",
   "status": "partial",
   "theorems": [
    "Peak.C50_modes_partial",
    "Peak.C50_violated",
    "Peak.Fl.C50_names",
    "Peak.Fl.C50_calls_partial",
    "Peak.Fl.C50_fma_partial",
    "Peak.Fl.C50_violated_modes",
    "Peak.Fl.C50_violated_fma",
    "Peak.Fl.C50_violated_predicates",
    "Peak.Fl.C50_no_others"
   ],
   "note": "Python family, any host library: unary and binary methods and comparisons with RNE and RTZ as inputs and all modes as constants, fused multiply-add with RNE and RTZ as input. Negations: RDN, RUP, RMM as inputs always raise, constant-mode fma always raises, methods with one operand that give a Bit always raise AttributeError."
  },
  {
   "property": "C51",
   "status": "proved",
   "theorems": [
    "Peak.RV.C51_mappable"
   ],
   "note": "For every instruction the mappable design returns the simulator's next pc and destination content."
  },
  {
   "property": "C52",
   "status": "partial",
   "theorems": [
    "Peak.RV.C52_register",
    "Peak.RV.C52_exactly_one",
    "Peak.RV.C52_immediate_partial",
    "Peak.RV.C52_violated_sub"
   ],
   "note": "Registers and immediates for all builders, with asm_SUB excluding imm=-2048, for which the negation is proved (C52_violated_sub)."
  },
  {
   "property": "C53",
   "status": "partial",
   "theorems": [
    "Peak.PE1.C53_alu",
    "Peak.PE1.C53_pe_partial",
    "Peak.PE1.C53_fresh",
    "Peak.PE1.C53_defaults",
    "Peak.PE1.C53_violated_cond_alu",
    "Peak.PE1.C53_violated_unsigned",
    "Peak.PE1.C53_alu_flags",
    "Peak.PE1.C53_violated_lte_min"
   ],
   "note": "Operations and flags proved for both signednesses; the PE for all conditions but Cond.ALU. Violated: Cond.ALU returns 16 bits, and unsigned operations are computed signed if enum members are always true."
  },
  {
   "property": "C54",
   "status": "partial",
   "theorems": [
    "Peak.C54_sound_partial",
    "Peak.C54_complete_partial",
    "Peak.C54_none",
    "Peak.C54_violated_black_box",
    "Peak.C54_arch_black_box"
   ],
   "note": "Soundness for IR classes without black boxes, completeness and the meaning of None proved. With black boxes in the IR the claim is false: their outputs are existentially quantified (C54_violated_black_box). Black boxes in the architecture always raise AttributeError (C54_arch_black_box). The solver loop is C34."
  },
  {
   "property": "C55",
   "status": "partial",
   "theorems": [
    "Peak.C55_sound_values_partial",
    "Peak.C55_complete_values_partial",
    "Peak.C55_decides_values_partial",
    "Peak.C55_violated_constraint",
    "Peak.C55_violated_unquantified_constraint",
    "Peak.C55_instruction_constraints",
    "Peak.C55_any_instruction",
    "Peak.C55_instruction_boxes",
    "Peak.C55_instruction_bits",
    "Peak.C55_instruction",
    "Peak.C55_instruction_values",
    "Peak.C55_instruction_consts",
    "Peak.C55_instruction_known",
    "Peak.C55_instruction_known_plain",
    "Peak.C55_violated_nested_const",
    "Peak.C55_sound_up_to_places_partial",
    "Peak.C55_instruction_consts_partial",
    "Peak.C55_sound_up_to_constants_partial",
    "Peak.C55_sound_no_overlap_partial",
    "Peak.C55_sound_partial",
    "Peak.C55_complete_partial",
    "Peak.C55_decides_checked_partial",
    "Peak.C55_any_mapping_partial",
    "Peak.C55_decides_partial",
    "Peak.C55_violated_overlap",
    "Peak.C55_violated_nested"
   ],
   "note": "Proved with black boxes. Soundness: unconditionally up to the values of constants, and in full when no Const leaf of the architecture can be bound by one candidate and free in another, in particular when the IR has no Const inputs; constraints on Const leaves only; with constraints on other leaves, whatever allowed values are put there, given that each such leaf occurs in a candidate binding (C55_sound_values_partial, C55_complete_values_partial). Completeness: flat outputs, rules all of whose inputs have valid Const fields, ValueError for enum leaves excepted. Where only whole fields are Const, none in the IR, and the validators are exact, the search decides whether a correct mapping exists and never raises (C55_decides_partial). Violated: overlapping Const leaves give arbitrary constants (C55_violated_overlap); nested IR outputs are never mapped (C55_violated_nested); a constrained leaf that is not Const gets an arbitrary constant (C55_violated_constraint), and if it is in no candidate binding, any wrong rule is accepted (C55_violated_unquantified_constraint); Const enums inside a field that is not Const may make solve raise ValueError (C55_violated_nested_const). For the usual problem, one Const instruction and flat data inputs and outputs, the search finds a rule exactly when some instruction and wiring computes the IR function (C55_instruction), also with black boxes and with constraints on leaves of the instruction (C55_instruction_boxes, C55_instruction_constraints). Each correct mapping is what some sound and complete solver gives (C55_any_mapping_partial, C55_any_instruction)."
  },
  {
   "property": "C56",
   "status": "partial",
   "theorems": [
    "Peak.Pico.C56_init",
    "Peak.Pico.C56_step_partial",
    "Peak.Pico.C56_run_partial",
    "Peak.Pico.C56_run_unsigned_partial",
    "Peak.Pico.C56_add32",
    "Peak.Pico.C56_violated_sub32",
    "Peak.Pico.C56_compare_partial",
    "Peak.Pico.C56_unsigned_names",
    "Peak.Pico.C56_violated_signed",
    "Peak.Pico.C56_call_return",
    "Peak.Pico.C56_read",
    "Peak.Pico.C56_poke_reg",
    "Peak.Pico.C56_peak_flag_partial",
    "Peak.Pico.C56_builders",
    "Peak.Pico.C56_violated_peak_flag",
    "Peak.Pico.C56_violated_peek_poke",
    "Peak.Pico.C56_constant"
   ],
   "note": "Every step and every run proved against the instruction set except for the overflow flag of sub and sbc (and the conditions that read it); constants are built in three instructions (C56_constant); violated: signed comparisons after sub, 32-bit subtraction with sbc, peak_flag('V'), and poke_flag, poke_pc, poke_mem and peak_mem of an instruction, which raise"
  },
  {
   "property": "C57",
   "status": "partial",
   "theorems": [
    "Peak.C57_assertion",
    "Peak.C57_count",
    "Peak.C57_sound_partial",
    "Peak.C57_no_error",
    "Peak.C57_complete_partial",
    "Peak.C57_violated_duplicate",
    "Peak.C57_violated_state",
    "Peak.C57_violated_in_"
   ],
   "note": "Soundness and completeness for PEs whose outputs do not depend on state and modules without an input named in_; both fail otherwise (C57_violated_state, C57_violated_in_). The mappings are not distinct (C57_violated_duplicate). The PE attributes _peak_inputs_/_peak_outputs_ are parameters; the repository never sets them."
  },
  {
   "property": "C58",
   "status": "partial",
   "theorems": [
    "Peak.Pdp8.C58_step_partial",
    "Peak.Pdp8.C58_run_partial",
    "Peak.Pdp8.C58_page_zero_partial",
    "Peak.Pdp8.C58_halt",
    "Peak.Pdp8.C58_run_stops",
    "Peak.Pdp8.C58_run_returns",
    "Peak.Pdp8.C58_prog_add",
    "Peak.Pdp8.C58_prog_or",
    "Peak.Pdp8.C58_prog_xor",
    "Peak.Pdp8.C58_prog_cmp_partial",
    "Peak.Pdp8.C58_violated_cmp",
    "Peak.Pdp8.C58_violated_snl",
    "Peak.Pdp8.C58_violated_unwritten",
    "Peak.Pdp8.C58_violated_page",
    "Peak.Pdp8.C58_violated_jmp",
    "Peak.Pdp8.C58_violated_isz",
    "Peak.Pdp8.C58_violated_swap",
    "Peak.Pdp8.C58_violated_auto"
   ],
   "note": "C58_step_partial, C58_run_partial: refinement of an integer machine for any number of calls that return, outside the cases listed in Covered; C58_page_zero_partial: on page zero with written operands the calls return. The test programs for all operands (C58_prog_*). run(): C58_halt (HLT sets halt), C58_run_stops and C58_run_returns (run returns exactly after the calls up to the first that sets halt, or raises what a call raises). The excluded cases are violations: snl/szl inverted, pages other than zero, iac without carry (comparison with 0), unwritten cells, counters that never wrap, no byte swap, no auto-indexing (C58_violated_*)."
  },
  {
   "property": "C59",
   "status": "partial",
   "theorems": [
    "Peak.RV.C59_step_partial",
    "Peak.RV.C59_run_partial",
    "Peak.RV.C59_mappable",
    "Peak.RV.C59_violated_smt",
    "Peak.RV.C59_violated_floor"
   ],
   "note": "Multiplication and unsigned division for all operands. Signed division depends on the bit-vector library, whose source is not available: with the operations of SMT-LIB everything but a negative number divided by 0 is right (C59_violated_smt), with Python's floor division only exact quotients and operands of one sign are (C59_violated_floor). Both readings are kept as parameters."
  },
  {
   "property": "C60",
   "status": "partial",
   "theorems": [
    "Peak.Rw.C60_call_partial",
    "Peak.Rw.C60_run_partial",
    "Peak.Rw.C60_total",
    "Peak.Rw.C60_total_run",
    "Peak.Rw.C60_register",
    "Peak.Rw.C60_register_no_enable",
    "Peak.Rw.C60_violated_component_under_condition",
    "Peak.Rw.C60_violated_next_call",
    "Peak.Rw.C60_violated_and",
    "Peak.Rw.C60_violated_types",
    "Peak.Rw.C60_violated_untaken_raise"
   ],
   "note": "Equality for every body that respects its annotations and calls no component with state under a condition (components without state may be called anywhere); for bodies that return on every path and raise nothing both calls are shown to return. The passes (ssa, bool_to_bit, if_to_phi) belong to the library ast_tools, whose source is not in /repo: their documented meaning is modelled. False without these conditions: C60_violated_component_under_condition, C60_violated_next_call, C60_violated_and, C60_violated_types, C60_violated_untaken_raise."
  },
  {
   "property": "C61",
   "status": "proved",
   "theorems": [
    "Peak.SPe.C61_small_ir_mapping",
    "Peak.SPe.C61_small_ir_mapping_simple",
    "Peak.SPe.C61_small_ir_ops",
    "Peak.SPe.C61_any_function",
    "Peak.SPe.C61_any_function_simple",
    "Peak.SPe.C61_one_word"
   ],
   "note": "For both formulas (simple_formula on and off). The solver's contract (sound and complete) is a hypothesis, as is that the validators involved are exact (C05), which holds in a fresh process. Whether z3 ends in reasonable time is not modelled. Beyond SmallIR: which of all functions of two words are mapped is characterised (C61_any_function), and none of one word is (C61_one_word)."
  },
  {
   "property": "C62",
   "status": "proved",
   "theorems": [
    "Peak.RPe.C62_step",
    "Peak.RPe.C62_run",
    "Peak.RPe.C62_filled",
    "Peak.RPe.C62_mappable",
    "Peak.RPe.C62_agree",
    "Peak.RPe.C62_mapping",
    "Peak.RPe.C62_mapping_simple"
   ],
   "note": "For both formulas. The solver's contract (sound and complete) and that the validators involved are exact (C05), which holds in a fresh process, are hypotheses. Instructions without inputs are not covered by the mapping theorems."
  },
  {
   "property": "C63",
   "status": "partial",
   "theorems": [
    "Peak.LPe.C63_pe",
    "Peak.LPe.C63_universal",
    "Peak.LPe.C63_agree",
    "Peak.LPe.C63_mapping",
    "Peak.LPe.C63_mapping_simple",
    "Peak.LPe.C63_violated_opcode"
   ],
   "note": "Everything but the last sentence is proved for every process (C63_pe, C63_universal, C63_agree, C63_mapping, C63_mapping_simple). The last sentence fails: the codes 1, 2 and 6 of OP form several ranges, so its validator accepts every code, and with some sound and complete solver the mapper returns a rule with operation 0, which no assembler disassembles (C63_violated_opcode)."
  },
  {
   "property": "C64",
   "status": "partial",
   "theorems": [
    "Peak.FPe.C64_mapped",
    "Peak.FPe.C64_test_rr",
    "Peak.FPe.C64_violated_opcode"
   ],
   "note": "Everything but the last sentence is proved: found exactly when Fits, for every function, box and process of the kind named in the quantifier (C64_mapped); the six instructions of test_rr get the answers given there (C64_test_rr). The last sentence fails: the codes of FPU_op form several ranges, so its validator accepts every code, and with some sound and complete solver the mapper returns for the square root a rule with the code 1, which no assembler disassembles (C64_violated_opcode)."
  },
  {
   "property": "C65",
   "status": "proved",
   "theorems": [
    "Peak.SPe.C65_mapped",
    "Peak.SPe.C65_mapped_simple",
    "Peak.SPe.C65_test_const_constraint"
   ],
   "note": "For every function, every set of constraints on places of the instruction and every sound and complete solver, with both formulas (C65_mapped, C65_mapped_simple); the seven cases of test_const_constraint follow (C65_test_const_constraint). A constraint on a data input is C67."
  },
  {
   "property": "C66",
   "status": "partial",
   "theorems": [
    "Peak.RMap.C66_agree",
    "Peak.RMap.C66_mapped",
    "Peak.RMap.C66_mapped_simple",
    "Peak.RMap.C66_test_riscv",
    "Peak.RMap.C66_violated_subi"
   ],
   "note": "C66_mapped (default formula) and C66_mapped_simple: found and correct exactly for the functions in the specification Fits, None otherwise; C66_agree: the SMT simulator on the assembled bits is the SMT simulator on the instruction; C66_test_riscv: addition is found, for every solver. The last clause is false: C66_violated_subi: adding 2048 is mapped and every instruction that does it makes the Python simulator raise AssertionError. Not modelled: ast_tools' rewriting of the simulator (if statements become choices between the values of all branches)."
  },
  {
   "property": "C67",
   "status": "proved",
   "theorems": [
    "Peak.SPe.C67_mapped",
    "Peak.SPe.C67_mapped_simple",
    "Peak.SPe.C67_more_values",
    "Peak.SPe.C67_test_non_const_constraint"
   ],
   "note": "For every function of one word, every nonempty list of allowed values and every sound and complete solver, with both formulas (C67_mapped, C67_mapped_simple), from C33_instruction_values and C55_instruction_values, which hold for any architecture with one Const input and flat data inputs and constraints on both; the three cases of test_non_const_constraint follow (C67_test_non_const_constraint). C67_more_values: adding an allowed value never turns None into a rule."
  },
  {
   "property": "C68",
   "status": "proved",
   "theorems": [
    "Peak.CPe.C68_mapped",
    "Peak.CPe.C68_mapped_simple",
    "Peak.CPe.C68_immediate",
    "Peak.CPe.C68_test_const",
    "Peak.EO.C68_early_out_inputs",
    "Peak.EO.C68_early_out_outputs"
   ],
   "note": "C33_instruction_consts is for every architecture with one Const instruction; C55_instruction_consts (simple formula) assumes that no instruction has two leaves of the type of a Const IR input (with two, C55_violated_overlap) and that the validator does not look at the constants."
  },
  {
   "property": "C69",
   "status": "partial",
   "theorems": [
    "Peak.Arm.C69_raises",
    "Peak.Arm.C69_data_immediate_partial",
    "Peak.Arm.C69_ldst_immediate_partial",
    "Peak.Arm.C69_registers",
    "Peak.Arm.C69_violated_immediate",
    "Peak.Arm.C69_violated_words",
    "Peak.Arm.C69_violated_branch",
    "Peak.Arm.C69_words"
   ],
   "note": "Register operands and the refusal of immediates hold. Immediate operands are exact: right only for 0 (data builders: the two parts are exchanged and the value is cut to 4 bits) and for 0..15 (loads and stores); C69_violated_immediate. The word of every instruction is determined exactly (C69_words); the words do not tell ra from rb (C69_violated_words) and those of branches do not fit (C69_violated_branch)."
  },
  {
   "property": "C70",
   "status": "partial",
   "theorems": [
    "Peak.XPe.C70_pe_partial",
    "Peak.XPe.C70_builders",
    "Peak.XPe.C70_violated_compare",
    "Peak.XPe.C70_violated_cond_alu",
    "Peak.XPe.C70_violated_inputs"
   ],
   "note": "C70_pe_partial covers all sequences of calls with two inputs and the codes about zero, sign and the table; C70_violated_compare: carry and overflow are always 0, so the comparison codes do not compare; C70_violated_cond_alu: Cond.ALU returns the 16-bit word; C70_violated_inputs: no other number of inputs works."
  },
  {
   "property": "C71",
   "status": "partial",
   "theorems": [
    "Peak.Demo.C71_pe1",
    "Peak.Demo.C71_pe2",
    "Peak.Demo.C71_pe3",
    "Peak.Demo.C71_pe4_partial",
    "Peak.Demo.C71_violated_carry",
    "Peak.Demo.C71_pe5",
    "Peak.Demo.C71_subtract",
    "Peak.Demo.C71_no_subtract",
    "Peak.Demo.C71_pe6",
    "Peak.Demo.C71_signed_add",
    "Peak.Demo.C71_alu"
   ],
   "note": "Proved in full for pe1, pe2, pe3, pe5, pe6 and examples/alu; for pe4 flag C is right exactly where there is no carry (C71_pe4_partial), and C71_violated_carry shows that it is 0 for every addition."
  },
  {
   "property": "C72",
   "status": "partial",
   "theorems": [
    "Peak.Cl.C72_field_partial",
    "Peak.Cl.C72_missing",
    "Peak.Cl.C72_instance",
    "Peak.Cl.C72_instance_option",
    "Peak.Cl.C72_eq",
    "Peak.Cl.C72_violated_ne",
    "Peak.Cl.C72_ne_partial",
    "Peak.Cl.C72_instance_ne",
    "Peak.Cl.C72_violated_reserved",
    "Peak.Cl.C72_violated_member",
    "Peak.Cl.C72_in",
    "Peak.Cl.C72_flip",
    "Peak.Cl.C72_modified"
   ],
   "note": "C72_field_partial excludes names the class uses itself (C72_violated_reserved) and Enum members (C72_violated_member: TypeError); C72_violated_ne: != of two assembled classes is always true, also of a class and itself. The rest is proved in full."
  },
  {
   "property": "C73",
   "status": "partial",
   "theorems": [
    "Peak.Ic.C73_codes_partial",
    "Peak.Ic.C73_returns",
    "Peak.Ic.C73_returnsAll",
    "Peak.Ic.C73_violated_receiver",
    "Peak.Ic.C73_violated_parameter",
    "Peak.Ic.C73_violated_enclosing",
    "Peak.Ic.C73_violated_shadow"
   ],
   "note": "Proved for bodies where attributes are taken of dotted names without a constant inside and names mean the same to the pass, in the given and in the new function (C73_codes_partial); when the pass returns is determined exactly (C73_returns). Each condition is needed: constants inside a receiver are not replaced (C73_violated_receiver), a parameter named like a type is replaced by a code (C73_violated_parameter), a global shadows a type of the enclosing function (C73_violated_shadow), names of enclosing functions are lost (C73_violated_enclosing)."
  },
  {
   "property": "C74",
   "status": "partial",
   "theorems": [
    "Peak.Pdp8.Asm.C74_effects",
    "Peak.Pdp8.Asm.C74_violated_glk",
    "Peak.Pdp8.Asm.C74_skips",
    "Peak.Pdp8.Asm.C74_violated_link",
    "Peak.Pdp8.Asm.C74_combined_partial",
    "Peak.Pdp8.Asm.C74_halt",
    "Peak.Pdp8.Asm.C74_and",
    "Peak.Pdp8.Asm.C74_tad",
    "Peak.Pdp8.Asm.C74_dca",
    "Peak.Pdp8.Asm.C74_isz",
    "Peak.Pdp8.Asm.C74_jmp",
    "Peak.Pdp8.Asm.C74_jms",
    "Peak.Pdp8.Asm.C74_violated_address",
    "Peak.Pdp8.Asm.C74_keywords1",
    "Peak.Pdp8.Asm.C74_keywords_again",
    "Peak.Pdp8.Asm.C74_keywords2"
   ],
   "note": "Holds for every state for the group-1 builders (C74_effects), the skips on the accumulator and their combinations, hlt, the keywords, and the memory builders with addresses 0..127, direct or indirect, zero or current page, executed on page zero. It fails for szl and snl, which are exchanged (C74_violated_link), for glk, which always raises TypeError (C74_violated_glk), and for larger addresses, which are silently reduced modulo 128 (C74_violated_address)."
  },
  {
   "property": "C75",
   "status": "partial",
   "theorems": [
    "Peak.PE1.Asm.C75_results",
    "Peak.PE1.Asm.C75_unsigned_partial",
    "Peak.PE1.Asm.C75_violated_unsigned",
    "Peak.PE1.Asm.C75_comparisons",
    "Peak.PE1.Asm.C75_violated_neg",
    "Peak.PE1.Asm.C75_modes",
    "Peak.PE1.Asm.C75_fields"
   ],
   "note": "All builders but neg are right on every state and all inputs: 15 whose result does not depend on how Signed.unsigned counts as a condition (C75_results), the ten comparisons (C75_comparisons) and the modes (C75_modes); the five unsigned ones exactly if Signed.unsigned is false as a condition, which depends on hwtypes (C75_unsigned_partial, C75_violated_unsigned). neg subtracts: with one operand it returns the operand (C75_violated_neg)."
  },
  {
   "property": "C76",
   "status": "partial",
   "theorems": [
    "Peak.RG.C76_same",
    "Peak.RG.C76_distinct",
    "Peak.RG.C76_register",
    "Peak.RG.C76_refused",
    "Peak.RG.C76_violated_family",
    "Peak.RG.C76_violated_old"
   ],
   "note": "C76_register, C76_same, C76_distinct prove everything for the Python families if initial values that are the same dictionary key are converted to the same value (true of ints and bit vectors: bvEnv_coherent), except for two clauses that fail: the cache key has the class of the family and not the family, so that a second family of a class gets registers assembled with the passes of the first (C76_violated_family); gen_register2 does not convert the initial value, so that the first call gives the int 0 (C76_violated_old)."
  },
  {
   "property": "C77",
   "status": "partial",
   "theorems": [
    "Peak.Ctor.C77_product_partial",
    "Peak.Ctor.C77_call_partial",
    "Peak.Ctor.C77_tuple_partial",
    "Peak.Ctor.C77_violated_name",
    "Peak.Ctor.C77_tagged_partial",
    "Peak.Ctor.C77_call_tagged_partial",
    "Peak.Ctor.C77_tagged_default_partial",
    "Peak.Ctor.C77_tagged_tag_partial",
    "Peak.Ctor.C77_whole",
    "Peak.Ctor.C77_violated_option",
    "Peak.Ctor.C77_sum_partial",
    "Peak.Ctor.C77_violated_sum",
    "Peak.Ctor.C77_refused",
    "Peak.Ctor.C77_typed"
   ],
   "note": "products, tuples, tagged unions and sums for all values and all ways of passing the arguments; fails for fields and options named default_bv or tag_bv and for Sum, whose constructor takes one argument in the Python family and two in the others (C77_violated_name, C77_violated_option, C77_violated_sum); zero-width fields and one-option unions are those of C19"
  },
  {
   "property": "C78",
   "status": "partial",
   "theorems": [
    "Peak.Fam.C78_interface",
    "Peak.Fam.C78_untyped",
    "Peak.Fam.C78_violated_typecheck"
   ],
   "note": "C78_interface and C78_untyped prove everything but the last sentence, which fails: the passes start from the source of the function inside the checking wrapper, so that the check is lost in PyXFamily and SMTFamily (C78_violated_typecheck)"
  },
  {
   "property": "C79",
   "status": "partial",
   "theorems": [
    "Peak.Rtl.C79_wrapped",
    "Peak.Rtl.C79_by_name",
    "Peak.Rtl.C79_violated_kinds"
   ],
   "note": "Proved for product types, the ones the function supports. Sums, tuples and enums raise TypeError at the first key of the layout, and the instruction port of a bit-vector type is left undriven (C79_violated_kinds). Magma is reduced to its bit connections."
  },
  {
   "property": "C80",
   "status": "partial",
   "theorems": [
    "Peak.RV.C80_builders",
    "Peak.RV.C80_builders_arguments",
    "Peak.RV.C80_base_builders",
    "Peak.RV.C80_base_immediate_partial",
    "Peak.RV.C80_violated_fields",
    "Peak.RV.C80_fields_partial",
    "Peak.RV.C80_isa_partial",
    "Peak.RV.C80_violated_isa",
    "Peak.RV.C80_constructors",
    "Peak.RV.C80_violated_opcodes"
   ],
   "note": "The builders and their argument checks are proved in full. Violated by the code: get_fields and set_fields raise on every extension instruction (C80_violated_fields; C80_fields_partial covers the others), and using the extension adds its option to the shared namespace of examples/riscv and so shifts opcodes (C80_violated_isa, C80_violated_opcodes; C80_isa_partial covers processes that do not use it)."
  },
  {
   "property": "C81",
   "status": "partial",
   "theorems": [
    "Peak.RV.C81_get_fields",
    "Peak.RV.C81_get_registers",
    "Peak.RV.C81_set_rejects",
    "Peak.RV.C81_set_get_partial",
    "Peak.RV.C81_violated_set",
    "Peak.RV.C81_builders",
    "Peak.RV.C81_immediate_partial"
   ],
   "note": "Proved for get_fields, for rejected values and for the builders on all instructions, and for set_fields on the instructions of the base set; violated for multiplications and divisions: set_fields raises KeyError whenever the values fit (C81_violated_set), and no builders exist for them."
  },
  {
   "property": "C82",
   "status": "partial",
   "theorems": [
    "Peak.Conv.C82_value",
    "Peak.Conv.C82_refused",
    "Peak.Conv.C82_round_trip",
    "Peak.Conv.C82_binding",
    "Peak.Conv.C82_binding_total",
    "Peak.Conv.C82_strip",
    "Peak.Conv.C82_violated_class"
   ],
   "note": "All but the class of a vector is proved; C82_violated_class shows that a signed or unsigned constant comes back as a plain BitVector (rebind_value builds family.BitVector whatever the class was)."
  },
  {
   "property": "C83",
   "status": "proved",
   "theorems": [
    "Peak.Conv.C83_ports"
   ],
   "note": "All annotations in the model's grammar; the effect of hwtypes' strip_modifiers is its documented meaning."
  },
  {
   "property": "C84",
   "status": "partial",
   "theorems": [
    "Peak.RMM.C84_agree",
    "Peak.RMM.C84_mapped",
    "Peak.RMM.C84_mapped_simple",
    "Peak.RMM.C84_violated_div"
   ],
   "note": "C84_mapped (default formula) and C84_mapped_simple: found and correct exactly for the functions in the specification Fits (Spec/RiscVMMap), None otherwise; C84_agree: the SMT simulator on the assembled bits is the SMT simulator on the instruction. The clause that division is that of the manual is false: C84_violated_div: no rule is found for it, because the SMT family gives 1 for a negative number divided by 0. Not modelled: ast_tools' rewriting of the simulator."
  },
  {
   "property": "C85",
   "status": "proved",
   "theorems": [
    "Peak.RXM.C85_agree",
    "Peak.RXM.C85_mapped",
    "Peak.RXM.C85_mapped_simple"
   ],
   "note": "C85_mapped (default formula) and C85_mapped_simple: found and correct exactly for the functions in the specification Fits (Spec/RiscVXMap), None otherwise; C85_agree: the SMT simulator on the assembled bits is the SMT simulator on the instruction. What the counter of examples/riscv_ext returns is C46."
  },
  {
   "property": "C86",
   "status": "partial",
   "theorems": [
    "Peak.FE.C86_leaves",
    "Peak.FE.C86_const_paths",
    "Peak.FE.C86_mapper_input",
    "Peak.FE.C86_const_fields",
    "Peak.FE.C86_multi",
    "Peak.FE.C86_mapper_partial",
    "Peak.FE.C86_violated_tuple",
    "Peak.FE.C86_strip"
   ],
   "note": "Modifiers and Const leaves in full (C86_leaves, C86_const_paths), and that these are what the model of the mapper is given (C86_mapper_input, C86_const_fields). Multi takes exactly the closures with one Peak class (C86_multi). Violated for the mapper: a closure that returns a tuple with one Peak class raises AttributeError (C86_violated_tuple), since path_to_adt reads input_t of what the closure returned; closures that return the class are taken, and those without exactly one are a ValueError (C86_mapper_partial)."
  },
  {
   "property": "C87",
   "status": "partial",
   "theorems": [
    "Peak.C87_initial_partial",
    "Peak.C87_none",
    "Peak.C87_violated_random",
    "Peak.C87_violated_minus_one"
   ],
   "note": "Holds for 0, for 1 unless a variable has one bit, for -1 on Booleans, and for the vectors drawn (C87_initial_partial); negative numbers (C87_none). Violated: integers are reduced modulo the width instead of its power of two, so the vector of -1 is width-1 (C87_violated_minus_one) and a vector of w bits is only ever given numbers below w (C87_violated_random)."
  },
  {
   "property": "C88",
   "status": "partial",
   "theorems": [
    "Peak.BPe.C88_mapped",
    "Peak.BPe.C88_mapped_simple",
    "Peak.BPe.C88_mapped_simple_const_partial",
    "Peak.BPe.C88_test_basic",
    "Peak.BPe.C88_violated_unused"
   ],
   "note": "the code violates it for functions that do not use their Const word, with simple_formula=True (C88_violated_unused). Proved for the default formula and all functions; with simple_formula=True for functions of words that are not Const; and with a Const word: a rule is found exactly when there is one, and it is correct if the function depends on the constant"
  },
  {
   "property": "C89",
   "status": "proved",
   "theorems": [
    "Peak.BPe.C89_multi",
    "Peak.BPe.C89_test_multi",
    "Peak.BPe.C89_found_iff",
    "Peak.BPe.C89_returned",
    "Peak.BPe.C89_square"
   ],
   "note": "Correct programs are specified on words (Spec/BasicPeMulti.lean). C89_square: since each input is taken exactly once, one instruction is not found for the square of a word."
  },
  {
   "property": "C90",
   "status": "proved",
   "theorems": [
    "Peak.ANPe.C90_mapped",
    "Peak.ANPe.C90_mapped_simple"
   ],
   "note": "The if's of the PE are modelled as the choice family.assemble makes of them. Solvers are assumed sound and complete."
  },
  {
   "property": "C91",
   "status": "proved",
   "theorems": [
    "Peak.BxPe.C91_call",
    "Peak.BxPe.C91_inputs",
    "Peak.BxPe.C91_after_call",
    "Peak.BxPe.C91_raised",
    "Peak.BxPe.C91_py"
   ],
   "note": "Formulas are modelled by their values; the black boxes are those of C26."
  },
  {
   "property": "C92",
   "status": "proved",
   "theorems": [
    "Peak.FL.C92_refused",
    "Peak.FL.C92_bits",
    "Peak.FL.C92_single"
   ],
   "note": "C92_refused, C92_bits, C92_single"
  },
  {
   "property": "C93",
   "status": "proved",
   "theorems": [
    "Peak.CuPe.C93_verify",
    "Peak.CuPe.C93_rule",
    "Peak.CuPe.C93_mapped",
    "Peak.CuPe.C93_mapped_simple"
   ],
   "note": "C93_rule, C93_verify, C93_mapped, C93_mapped_simple"
  },
  {
   "property": "C94",
   "status": "proved",
   "theorems": [
    "Peak.FaPe.C94_mapped",
    "Peak.FaPe.C94_test"
   ],
   "note": "Words of any positive width; at most one black box in the IR instruction; the rewriting of if statements by ast_tools is not modelled."
  }
 ]
}