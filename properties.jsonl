{"id": "C01", "title": "Assembler round trip", "statement": "For every supported type T (BitVector, Bit, Enum, Tuple, Product, Sum, TaggedUnion, nested arbitrarily) and every value v of T, Assembler(T).disassemble(Assembler(T).assemble(v)) returns v, no matter which other assemblers the process built before.", "quantifier": "all ADT types of any depth and size, all their values, all histories of previously constructed assemblers", "why_tests_cant": "types nest without bound, and the outcome depends on process-global caches filled by earlier constructions; a test sees one type and one history", "anchors": ["peak/assembler/assembler.py:Assembler.assemble", "peak/assembler/assembler.py:Assembler.disassemble", "peak/assembler/assembler.py:_enum", "peak/assembler/assembler.py:_tuple", "peak/assembler/assembler.py:_sum", "peak/assembler/assembler.py:_field"]}
{"id": "C02", "title": "Assembled opcodes fit the advertised width", "statement": "assemble(v) never trips its bit-length assertion: for every value v of T the opcode is an integer below 2**Assembler(T).width and the returned bit vector has exactly that width.", "quantifier": "all ADT types and all their values", "why_tests_cant": "value space is exponential in the width and types are unbounded", "anchors": ["peak/assembler/assembler.py:Assembler.assemble", "peak/assembler/assembler.py:Assembler.width"]}
{"id": "C03", "title": "Assembly is injective", "statement": "Two different values of the same type never assemble to the same opcode, so instruction memories lose no information.", "quantifier": "all ADT types, all pairs of values", "why_tests_cant": "quadratic in an exponential space for each of infinitely many types", "anchors": ["peak/assembler/assembler.py:Assembler.assemble"]}
{"id": "C04", "title": "Assembled opcodes are accepted by is_valid", "statement": "is_valid(assemble(v)) is true for every value v of T, no matter what was assembled before in the same process.", "quantifier": "all types, values, and construction histories", "why_tests_cant": "needs all histories of the process-global validator cache", "anchors": ["peak/assembler/assembler.py:Assembler.is_valid", "peak/assembler/assembler_util.py:_gen_is_valid"]}
{"id": "C05", "title": "is_valid rejects opcodes that decode to nothing", "statement": "If is_valid(op) holds for an opcode of the right width, then disassemble(op) succeeds; an opcode outside the set of codes is reported by ValueError, never accepted and never surfaced as a KeyError.", "quantifier": "all types, all bit patterns of the type's width, all construction histories", "why_tests_cant": "2**width patterns for each of infinitely many types and histories", "anchors": ["peak/assembler/assembler.py:Assembler.is_valid", "peak/assembler/assembler.py:Assembler.disassemble", "peak/assembler/assembler_util.py:_gen_is_valid"]}
{"id": "C06", "title": "disassemble never fabricates a value", "statement": "Whenever disassemble(op) returns a value v, v is a genuine value of T and re-assembling v reproduces every bit of op that belongs to v's own encoding (only unused payload bits of a narrower union option may differ); for types without unions the re-assembled opcode equals op.", "quantifier": "all types, all bit patterns, all histories", "why_tests_cant": "exponential opcode space, unbounded types", "anchors": ["peak/assembler/assembler.py:Assembler.disassemble"]}
{"id": "C07", "title": "Field layout is a partition", "statement": "For a product or tuple the layout ranges of its fields are consecutive, disjoint and together cover exactly [0,width); for a union the tag range and every option's payload range are disjoint, start right after the tag and stay within the width.", "quantifier": "all product and union types", "why_tests_cant": "unbounded number of fields and nesting", "anchors": ["peak/assembler/assembler.py:_tuple", "peak/assembler/assembler.py:_sum", "peak/assembler/assembler.py:Assembler.layout"]}
{"id": "C08", "title": "Enum code assignment", "statement": "Explicit enum values keep their number; Auto members get, in declaration order, the smallest numbers not used by explicit members or earlier Autos; distinct members have distinct codes; negative values and empty enums are rejected.", "quantifier": "all enum declarations (any mix of explicit and Auto members)", "why_tests_cant": "unboundedly many declarations", "anchors": ["peak/assembler/assembler.py:_enum"]}
{"id": "C09", "title": "Union tags are distinct, dense and independent of declaration order", "statement": "A union with n options gets tags 0..n-1, one per option, fitting the tag width; the assignment is the same for every order in which the options are listed when their printed forms differ.", "quantifier": "all union types and all permutations of their options", "why_tests_cant": "factorially many orders", "anchors": ["peak/assembler/assembler.py:_sum", "peak/assembler/assembler.py:Assembler.assemble_tag", "peak/assembler/assembler.py:Assembler.disassemble_tag"]}
{"id": "C10", "title": "Nested sub-field extraction", "statement": "For any path into a nested type, slicing assemble(v) at Assembler(T).sub[path].idx yields the assembly of the sub-value of v at that path (whenever the value selects that path's union options), and tag_idx yields the tag.", "quantifier": "all types, all paths of any length, all values", "why_tests_cant": "unbounded depth of paths", "anchors": ["peak/assembler/assembler_abc.py:Sub._get", "peak/assembler/assembler_abc.py:Sub.idx", "peak/assembler/assembler_abc.py:Sub.tag_idx"]}
{"id": "C11", "title": "Validators generated from an opcode set are exact", "statement": "The predicate generated for a set of opcodes and a width accepts exactly the members of the set.", "quantifier": "all non-empty opcode sets that fit in the width, all bit patterns of that width", "why_tests_cant": "set of subsets of 2**width codes; several code-generation strategies chosen by a cost heuristic", "anchors": ["peak/assembler/assembler_util.py:_gen_is_valid"]}
{"id": "C12", "title": "Validator generation does not depend on history", "statement": "The predicate obtained for an opcode set and width is the same whatever validators were generated earlier in the process.", "quantifier": "all histories of validator requests", "why_tests_cant": "unbounded histories over a shared mutable cache", "anchors": ["peak/assembler/assembler_util.py:_validator_cache", "peak/assembler/assembler_util.py:_gen_is_valid"]}
{"id": "C13", "title": "The two assembler generations agree", "statement": "peak.assembler2.Assembler and peak.assembler.Assembler give every value of every type the same opcode and width.", "quantifier": "all types and values", "why_tests_cant": "unbounded types", "anchors": ["peak/assembler/assembler.py", "peak/assembler2/assembler.py:Assembler.assemble"]}
{"id": "C14", "title": "assembler2 round trip", "statement": "assembler2: disassemble(assemble(v)) returns v for every value of every type.", "quantifier": "all types and values", "why_tests_cant": "unbounded types", "anchors": ["peak/assembler2/assembler.py:Assembler.assemble", "peak/assembler2/assembler.py:Assembler.disassemble"]}
{"id": "C15", "title": "assembler2 extract and match decide union membership and projection", "statement": "assembler2: match(assemble(v), k) is true exactly when v holds option k (by name, or by type when several names share a type), and extract(assemble(v), k) is the assembly of v's field k (for a union, of the payload when k is the held option).", "quantifier": "all types, values, field keys", "why_tests_cant": "unbounded types and exponential opcodes", "anchors": ["peak/assembler2/assembler.py:Assembler.extract", "peak/assembler2/assembler.py:Assembler.match"]}
{"id": "C16", "title": "assembler2 from_fields builds what assemble builds", "statement": "assembler2: building an opcode from the assembled fields gives assemble(v) when every part has positive width; with a zero-width part the construction must still work.", "quantifier": "all product and union types and their values", "why_tests_cant": "unbounded types", "anchors": ["peak/assembler2/assembler.py:Assembler.from_fields", "peak/assembler2/assembler.py:_create_from_layout"]}
{"id": "C17", "title": "AssembledADT field access mirrors the unassembled value", "statement": "For every value v of a product/tuple, AssembledADT[T](v).field equals AssembledADT[field type](v.field); for a union, .match is true exactly for the held option and .value on the held option equals the assembled payload. An AssembledADT made from any bits of the right width has every field, of the field's class and with the bits in its range; of a union at most one option matches, and one does exactly when the tag is below the number of options.", "quantifier": "all types, values, fields; all bit patterns", "why_tests_cant": "unbounded types", "anchors": ["peak/assembler/assembled_adt.py:AssembledADT._get_", "peak/assembler/assembled_adt.py:AssembledADT.__init__"]}
{"id": "C18", "title": "AssembledADT equality is value equality", "statement": "AssembledADT[T](v) == AssembledADT[T](w) exactly when v == w, for enums, products and unions.", "quantifier": "all types, pairs of values", "why_tests_cant": "pairs over an exponential space", "anchors": ["peak/assembler/assembled_adt.py:AssembledADT.__eq__"]}
{"id": "C19", "title": "AssembledADT.from_fields agrees with assembling the whole value", "statement": "Building an AssembledADT from its assembled fields equals assembling the whole value (unused union payload bits filled from the default); it must also work when a field has zero width. The fields read from a product, whatever its bits, give the product back; a product or tuple with one field may also be called with the value of the field itself and gives the same value.", "quantifier": "all product and union types, all field values; all bit patterns", "why_tests_cant": "unbounded types", "anchors": ["peak/assembler/assembled_adt.py:_create_from_layout", "peak/assembler/assembled_adt.py:AssembledADT.from_fields"]}
{"id": "C20", "title": "Legacy auto-assembler round trip", "statement": "peak.auto_assembler: for every instruction type it supports, decoding the encoded instruction returns it, and the bits of the code at the range the returned layout gives for any part of the instruction (field, option, at any depth) are the code of that part.", "quantifier": "all supported types and values", "why_tests_cant": "unbounded types", "anchors": ["peak/auto_assembler.py:generate_assembler"]}
{"id": "C21", "title": "Bitfield encode is injective when sizes are honest", "statement": "bitfield.encode packs the fields so that they do not overlap: distinct instructions of a type get distinct words. An instruction that contains, at any depth, an Enum member without a number is refused.", "quantifier": "all types, values, both field orders", "why_tests_cant": "exponential value space, unbounded types", "anchors": ["peak/bitfield.py:encode", "peak/bitfield.py:size"]}
{"id": "C22", "title": "Register semantics", "statement": "A register call returns the value stored by the last enabled call before it (the initial value when there is none) and stores its argument exactly when enabled.", "quantifier": "all sequences of register calls", "why_tests_cant": "unbounded call histories", "anchors": ["peak/register.py", "peak/family.py:gen_register"]}
{"id": "C23", "title": "RAM and ROM behave as a map", "statement": "After any sequence of RAM accesses, a read of address a returns the data of the last write-enabled access to a, or its initial content; accesses out of range raise and change nothing; ROM contents never change.", "quantifier": "all access sequences, depths and initial contents", "why_tests_cant": "unbounded access histories", "anchors": ["peak/memory.py:gen_RAM", "peak/memory.py:gen_ROM"]}
{"id": "C24", "title": "Peak register attribute protocol", "statement": "Reading a register attribute of a Peak object peeks its value without changing state; assigning to it pokes exactly that register; every other attribute behaves as an ordinary attribute.", "quantifier": "all objects, attribute names and access sequences", "why_tests_cant": "unbounded access sequences", "anchors": ["peak/peak.py:Peak.__getattribute__", "peak/peak.py:Peak.__setattr__", "peak/peak.py:_is_dunder"]}
{"id": "C25", "title": "family_closure memoises per family", "statement": "A family-closed function builds its result at most once per family and arguments and always returns that same result for equal arguments; families of different kinds never share results.", "quantifier": "all call sequences", "why_tests_cant": "unbounded call histories; depends on __eq__/__hash__ of families", "anchors": ["peak/features.py:family_closure", "peak/family.py:AbstractFamily.__eq__", "peak/family.py:AbstractFamily.__hash__"]}
{"id": "C26", "title": "Black-box call protocol", "statement": "A black box returns the outputs set last, accepts exactly the calls made after outputs were set that give all parameters by position or all by name, records the inputs by parameter in declaration order for positional and keyword calls alike, and returns the inputs of the latest accepted call; reading inputs before any call raises; outputs are accepted exactly with one value for each output, and what is refused raises ValueError and changes nothing.", "quantifier": "all interleavings of set-outputs, call and get-inputs", "why_tests_cant": "unbounded interleavings", "anchors": ["peak/black_box.py:BlackBox"]}
{"id": "C27", "title": "All black boxes are found", "statement": "get_black_boxes returns exactly one path for every black box reachable through attributes of a Peak instance not nested below another black box, and following the path yields that instance.", "quantifier": "all instance trees", "why_tests_cant": "unbounded trees", "anchors": ["peak/black_box.py:get_black_boxes", "peak/black_box.py:get_black_box"]}
{"id": "C28", "title": "Binding enumeration is sound, complete and duplicate free", "statement": "create_bindings yields exactly the assignments of each architecture input to Unbound or to an IR input of the same type in which every IR input is used exactly once, each assignment once; it yields none when some IR type has no architecture counterpart.", "quantifier": "all finite input lists and types", "why_tests_cant": "factorially many bindings for unbounded input lists", "anchors": ["peak/mapper/utils.py:create_bindings"]}
{"id": "C29", "title": "Multi-instruction binding filter", "statement": "The multi-block binding enumeration yields only combinations where each IR input is bound exactly once over all blocks, and misses none.", "quantifier": "all numbers of blocks and inputs", "why_tests_cant": "exponential combinations", "anchors": ["peak/mapper/multi.py:create_bindings", "peak/mapper/multi.py:Multi"]}
{"id": "C30", "title": "Index variables select exactly one alternative", "statement": "For n alternatives, any assignment satisfying the index variable's validity constraint satisfies exactly one of the n match constraints, decode returns that index, and every index is reachable; out-of-range indices are rejected. The variable has one bit per alternative (one-hot), or the fewest bits, at least one, that can number them (binary).", "quantifier": "all n>=1, all bit patterns of the index variable, both encodings", "why_tests_cant": "all n and 2**len patterns", "anchors": ["peak/mapper/index_var.py:OneHot", "peak/mapper/index_var.py:Binary"]}
{"id": "C31", "title": "Formula constructors denote their connectives", "statement": "Rendering a formula built with And/Or/Implies to a Bit expression evaluates, for every assignment, to the logical value of the connectives; empty conjunctions and disjunctions are rejected.", "quantifier": "all formulas, all assignments", "why_tests_cant": "unbounded formula trees", "anchors": ["peak/mapper/formula_constructor.py:And", "peak/mapper/formula_constructor.py:Or", "peak/mapper/formula_constructor.py:Implies"]}
{"id": "C32", "title": "Form enumeration covers every shape of a value exactly once", "statement": "For every architecture input type, each value of the type satisfies the match conditions of exactly one enumerated form, and the form's leaf variables are exactly the leaves that value has.", "quantifier": "all nested types and all values", "why_tests_cant": "unbounded nesting; exponential number of union choices", "anchors": ["peak/mapper/utils.py:SMTForms"]}
{"id": "C33", "title": "A mapper solution is a correct rewrite rule", "statement": "If an assignment to the existential variables satisfies the mapping formula for all universal inputs, the rewrite rule built from it makes the architecture compute the IR function on all inputs, and conversely a correct rule over the enumerated bindings yields a satisfying assignment.", "quantifier": "all IR functions, architectures, forms, bindings and inputs", "why_tests_cant": "quantifies over all inputs of arbitrary functions", "anchors": ["peak/mapper/mapper.py:IRMapper.__init__", "peak/mapper/mapper.py:rr_from_solver"]}
{"id": "C34", "title": "Exists-forall solving is sound and complete", "statement": "external_loop_solve returns a rule only if it is correct for all inputs, returns None only if no rule exists, never revisits a candidate, and otherwise reports that the loop bound was exhausted; for finite domains a large enough bound always decides.", "quantifier": "all formulas, solvers' choices of models, seeds and loop bounds", "why_tests_cant": "all solver behaviours and unbounded iterations", "anchors": ["peak/mapper/mapper.py:external_loop_solve", "peak/mapper/mapper.py:_gen_initial"]}
{"id": "C35", "title": "Black-box outputs are treated as an uninterpreted function", "statement": "The constraints added for black boxes are satisfied exactly by the assignments of outputs for which some function maps each recorded input to its output, per black-box type.", "quantifier": "all call lists and assignments", "why_tests_cant": "quantifies over all functions", "anchors": ["peak/mapper/mapper.py:IRMapper.update_with_bb"]}
{"id": "C36", "title": "Rule verification decides equivalence", "statement": "RewriteRule.verify returns no counterexample exactly when, for every IR input and every value of the unbound architecture inputs, all bound outputs agree; a returned counterexample is a real disagreement.", "quantifier": "all rules and inputs", "why_tests_cant": "all inputs of the two functions", "anchors": ["peak/mapper/mapper.py:RewriteRule.verify"]}
{"id": "C37", "title": "Serialized bindings round trip", "statement": "Reading back serialized input and output bindings reproduces them, including Unbound entries and constants.", "quantifier": "all bindings", "why_tests_cant": "unbounded bindings and constants", "anchors": ["peak/mapper/mapper.py:RewriteRule.serialize_bindings", "peak/mapper/mapper.py:read_serialized_bindings"]}
{"id": "C38", "title": "Binding simplification preserves meaning", "statement": "Grouping leaf bindings into whole constants, products or unions gives the architecture the same input values as the leaf bindings; build_inputs refuses inputs for other paths than those of the rule.", "quantifier": "all types, leaf bindings and IR inputs", "why_tests_cant": "unbounded nesting", "anchors": ["peak/mapper/utils.py:SimplifyBinding", "peak/mapper/mapper.py:RewriteRule.build_inputs"]}
{"id": "C39", "title": "Constant conversion to solver terms", "statement": "Integers passed to the solver denote the same number modulo 2**width.", "quantifier": "all integers and widths", "why_tests_cant": "all integers", "anchors": ["peak/mapper/mapper.py:_int_to_pysmt"]}
{"id": "C40", "title": "Input and output types follow the signature", "statement": "The input type of a Peak class lists exactly its annotated parameters in order, parameters without annotation are rejected, and type checking accepts exactly the calls whose arguments and results have the declared types.", "quantifier": "all signatures and calls", "why_tests_cant": "unbounded signatures", "anchors": ["peak/features.py:gen_input_t", "peak/features.py:gen_output_t", "peak/features.py:typecheck", "peak/features.py:name_outputs"]}
{"id": "C41", "title": "IR instruction names are unique", "statement": "Adding an instruction under a name already present raises and leaves the table unchanged; otherwise lookups of other names are unaffected.", "quantifier": "all sequences of additions", "why_tests_cant": "unbounded histories", "anchors": ["peak/ir.py:IR.add_instruction"]}
{"id": "C42", "title": "Rounding modes translate faithfully", "statement": "Rounding modes survive translation to the host float library and to 3-bit codes and back; codes above 4 decode to RMM.", "quantifier": "all modes and codes", "why_tests_cant": "must agree for every code", "anchors": ["peak/float.py:RoundingMode_utils"]}
{"id": "C43", "title": "RISC-V example: register x0 and state isolation", "statement": "In any program run x0 reads as zero, each instruction changes at most its destination register, and branches, loads and stores change none.", "quantifier": "all instruction sequences and register states", "why_tests_cant": "unbounded programs", "anchors": ["examples/riscv/family.py", "examples/riscv/sim.py:R32I"]}
{"id": "C44", "title": "RISC-V example: instruction semantics", "statement": "Each decoded instruction computes the ISA manual's result and next pc for all operand values.", "quantifier": "all instructions, operands and pcs", "why_tests_cant": "2**96 inputs per instruction", "anchors": ["examples/riscv/sim.py:R32I"]}
{"id": "C45", "title": "RISC-V example: assembler field setters", "statement": "set_fields/get_fields on instructions round trip, and the assembler's immediate splitting reassembles to the requested value.", "quantifier": "all instructions and immediates", "why_tests_cant": "all immediates", "anchors": ["examples/riscv/asm.py"]}
{"id": "C46", "title": "RISC-V extension: bit counting", "statement": "POPCNT, CNTLZ and CNTTZ return the population count, the number of leading zeros and of trailing zeros of every 32-bit word.", "quantifier": "all 2**32 words", "why_tests_cant": "2**32 inputs per instruction and the proof must not enumerate", "anchors": ["examples/riscv_ext/sim.py:BitCounter"]}
{"id": "C47", "title": "PE example: condition codes decide comparisons", "statement": "After a subtraction, the condition codes EQ, NE, UGE, ULT, UGT, ULE, SGE, SLT, SGT, SLE return exactly the corresponding unsigned or signed comparison of the operands.", "quantifier": "all operand pairs", "why_tests_cant": "2**32 pairs at width 16", "anchors": ["examples/pe1/cond.py:cond", "examples/pe1/sim.py:alu"]}
{"id": "C48", "title": "PE example: LUT and register modes", "statement": "The LUT returns the table bit selected by its three inputs; a mode register returns the constant, the bypassed input, or the previously stored value according to its mode, and stores only in DELAY or enabled VALID mode.", "quantifier": "all tables, inputs and call sequences", "why_tests_cant": "unbounded call sequences", "anchors": ["examples/pe1/lut.py:lut", "examples/pe1/mode.py:gen_register_mode"]}
{"id": "C49", "title": "Generated IR instructions call the given function", "statement": "The class generated by IR.add_peak_instruction calls the given function with the family first and then the declared inputs in order, whatever the inputs and the instruction are called.", "quantifier": "all instruction names and input name lists", "why_tests_cant": "The source of the class is generated text; name capture depends on the names chosen by the user, of which there are infinitely many.", "anchors": ["peak/ir.py:IR.add_peak_instruction"]}
{"id": "C50", "title": "Floating-point closures round as requested", "statement": "Every floating-point closure performs its operation with the host rounding mode that has the meaning of the requested rounding mode, whether the mode is an input or a constant: float_lib_gen(..).Add_fc(Py)()(rm, a, b) and float_lib_gen(..).const_rm(rm).Add_fc(Py)()(a, b) are the host method fp_add on a and b, and so for every method of the host float class. The library has no closures besides these and the fused multiply-add.", "quantifier": "all host libraries whose method names the naming scheme tells apart; all methods, operands and rounding modes", "why_tests_cant": "Each operation has five branches that only run for their mode; tests exercise one mode.", "anchors": ["peak/float.py:float_lib_gen", "peak/float.py:const_rm"]}
{"id": "C51", "title": "The mappable RISC-V machine agrees with the simulator", "statement": "The mappable RISC-V design, given the values of the source registers and of the destination register, returns the program counter the simulator moves to and the content the simulator leaves in the destination register.", "quantifier": "all instructions, program counters and register contents", "why_tests_cant": "The two designs share code but use different register files; agreement must hold for every instruction and every aliasing of source and destination registers.", "anchors": ["examples/riscv/sim.py:R32I_mappable_fc", "examples/riscv/family.py:SMTFamily"]}
{"id": "C52", "title": "RISC-V instruction builders build the named instruction", "statement": "asm_X builds an instruction that, when executed, applies X to the registers or to the immediate it was given, and raises ValueError unless exactly one of rs2 and imm is given.", "quantifier": "all operations, register numbers and immediates in range, and machine states", "why_tests_cant": "Immediates range over 4096 values and several builders rewrite their operands.", "anchors": ["examples/riscv/asm.py", "examples/riscv/isa.py"]}
{"id": "C53", "title": "The PE computes the operation its instruction names", "statement": "A cycle of the PE returns the named operation on the operands its mode registers select, interpreted as signed or unsigned as the instruction says, with flags that describe the result, and a 1-bit result that is a bit.", "quantifier": "all instructions, inputs and register contents", "why_tests_cant": "The domain is 2^32 operand pairs per operation, and some combinations of fields are never tested.", "anchors": ["examples/pe1/sim.py:PE", "examples/pe1/sim.py:alu", "examples/pe1/cond.py:cond"]}
{"id": "C54", "title": "Programs found for several instructions compute the IR function", "statement": "For every architecture class with exactly one constant (instruction) field, every IR class and every number N of instructions, a program returned by the multi-instruction mapper is legal (each non-constant input of an instruction is left open or wired to an IR input or to an output of an earlier instruction of the same type, every IR input is wired exactly once, instructions are valid encodings) and, run on any IR inputs with arbitrary values in the open fields, the last instruction returns the outputs of the IR function; if such a program exists it is found, and None is returned only if there is none; both for use_real true and false.", "quantifier": "all IR and architecture functions, all field lists and types, all N, all IR inputs, all values of open fields, all answers of a sound (for completeness: complete) solver, both index encodings, both values of use_real", "why_tests_cant": "The claim ranges over all functions, all numbers of instructions and all inputs; a test runs one pair of classes with one N and looks at the printed answer.", "anchors": ["peak/mapper/multi.py:Multi", "peak/mapper/multi.py:RR", "peak/mapper/multi.py:create_bindings", "peak/mapper/index_var.py"]}
{"id": "C55", "title": "Rules found with simple_formula=True compute the IR function", "statement": "For every IR and architecture class, with black boxes or without, and every set of path constraints, a rule returned by process_ir_instruction(ir, simple_formula=True).solve() is a mapping (every IR input is read once, by an architecture input of the same type and constness; constants respect the constraints) and, on every input and whatever functions the black boxes compute, the bound outputs of the two instructions agree; if a correct rule exists whose inputs are valid, one is returned, and None only if there is none.", "quantifier": "all IR and architecture functions, all input and output types, all constraints, all black boxes and functions they may compute, all inputs, all answers of a sound (for completeness: complete) solver, both index encodings", "why_tests_cant": "The formula has one shared copy of the architecture and splits variables that some bindings quantify universally and others existentially; a test runs one pair of instructions, and the solver hides the answers it does not choose.", "anchors": ["peak/mapper/mapper.py:IRMapper", "peak/mapper/mapper.py:IRMapper.solve", "peak/mapper/mapper.py:rr_from_solver", "peak/mapper/formula_constructor.py", "peak/mapper/index_var.py"]}
{"id": "C56", "title": "The Pico simulator executes its instruction set", "statement": "For every program and state, a call of a Pico executes the instruction at the PC: registers, PC, printed output and the flags Z, N, C, V change as the instruction set says (V is signed overflow, C is the carry and, after a subtraction, unsigned greater-or-equal), and the call raises exactly when the PC is outside the program or the instruction has no meaning; so any number of calls computes what the program means, 32-bit additions and subtractions can be built from add/adc and sub/sbc, a jump after sub compares its operands for every condition, a return goes back behind its call, and the peek and poke methods read and write what they name.", "quantifier": "all programs of up to 256 instructions, all register, flag and PC contents, all operands, any number of steps", "why_tests_cant": "tests/test_pico.py runs single instructions on a few random operands with the carry clear and looks at one register; flags, conditions and sequences are only covered by a statement about all operands.", "anchors": ["examples/pico/sim.py:Pico", "examples/pico/sim.py:arith", "examples/pico/sim.py:cond", "examples/pico/isa.py", "examples/pico/asm.py", "peak/memory.py:ROM"]}
{"id": "C57", "title": "gen_mapping yields correct mappings, all of them, and no more than asked for", "statement": "Each mapping yielded by gen_mapping (instruction, output, input map) works: with the PE inputs the input map gives (the others at 0), a new PE executing that instruction gives on that output the value of the CoreIR module, for all values of the module's inputs. At most max_mappings distinct mappings are yielded; if fewer are yielded, every assignment of the module's inputs to PE inputs of their types, every instruction meeting the constraints and every output that compute the module are among them. An AssertionError is raised exactly when there is no such assignment of inputs.", "quantifier": "all PEs with any ports, all CoreIR modules with any inputs, all instruction sets and constraints, all values of the inputs, all max_mappings", "why_tests_cant": "Correctness is for all values of the inputs and completeness is over all permutations of inputs of every type; the number of ports, instructions and mappings is not bounded.", "anchors": ["peak/mapper/oldmapper.py: gen_mapping, check_equal, _group_by_value, _filter_io_types"]}
{"id": "C58", "title": "The PDP-8 example executes PDP-8 programs", "statement": "A call of the PDP8 simulator fetches the instruction at the program counter and changes memory, accumulator, link, program counter and the run flag as a PDP-8 does (page and indirect addressing with auto-indexing, the order of the operations of group 1 with the carry of IAC into the link, skips of group 2), for any number of calls; run() stops exactly when HLT is executed. The programs in its tests (sum, or, exclusive or, comparison) are right for all operands.", "quantifier": "all programs, all contents of memory and registers, all operands, any number of calls", "why_tests_cant": "Programs, memories and numbers of steps are unbounded; the tests run one-instruction programs and five programs with the operands 3 and 4.", "anchors": ["examples/pdp8/sim.py: PDP8.__call__, addr, load, store, run, poke_mem, poke_acc", "examples/pdp8/isa.py: Inst, MRI, OPR1, OPR2", "examples/pdp8/asm.py", "examples/pdp8/test_pdp8.py: test_prog_add, test_prog_or, test_prog_xor1, test_prog_cmp", "peak/memory.py: RAM"]}
{"id": "C59", "title": "The RISC-V example with the M extension multiplies and divides as the manual says", "statement": "In examples/riscv_m a call with MUL, MULH, MULHU, MULHSU, DIV, DIVU, REM or REMU writes to rd (unless it is x0) the value the RISC-V manual gives for the contents of rs1 and rs2, including division by zero and overflow, changes no other register, and returns the address of the next instruction; programs of any length that mix these with the base instructions run as on the machine; the mappable version returns the same value.", "quantifier": "all instructions, all register contents, all programs, any number of steps", "why_tests_cant": "There are 2^64 operand pairs for each operation; the interesting ones (division by zero, overflow, mixed signs) are few.", "anchors": ["examples/riscv_m/sim.py: R32I.__call__, R32I_mappable", "examples/riscv_m/isa.py: MulDivInst, AluInst, OP"]}
{"id": "C60", "title": "A class assembled for the SMT family computes what the Python class computes", "statement": "A Peak class assembled for a family that rewrites its call body to straight-line code (the SMT family and PyX) returns, for the same arguments and the same state, the value the class returns in the Python family, and leaves the same attributes and the same states in its components; the same holds for every sequence of calls of one object. The registers the families generate behave alike.", "quantifier": "all call bodies (any nesting of statements and expressions), all arguments, attributes and component states, all sequences of calls", "why_tests_cant": "The claim ranges over all programs a user may write, and over all their inputs.", "anchors": ["peak/family.py: _RewriterFamily.assemble, _StdMix.__init__, PyXFamily, SMTFamily, PyFamily, _RegFamily.gen_register"]}
{"id": "C61", "title": "The mapper finds exactly the instructions that the example PEs can compute", "statement": "Mapping an 8-bit instruction to the PE of examples/sum_pe or of examples/tagged_pe, with a sound and complete solver: of the instructions of examples/smallir, for Add, Sub, And, Nand, Or and Nor the mapper returns a rewrite rule and the rule is correct for all inputs; for Mul, Shftr, Shftl, Not and Neg it returns None. Of all functions of two words it finds exactly x + y + c, x - y + c, y - x + c, x & y, x | y and the complements of the last two; of one word none. It raises in no case.", "quantifier": "all sound and complete solvers and initial assignments, both encodings of index variables, both PEs, all instructions, all inputs of the rules, all histories of previously built assemblers with exact validators", "why_tests_cant": "The test runs one solver; that no rule exists for an instruction is a statement about all constants and bindings, and that a rule is correct one about all inputs.", "anchors": ["tests/test_aadt_mapping.py: test_automapper", "examples/sum_pe/sim.py: PE_fc", "examples/tagged_pe/sim.py: PE_fc", "examples/smallir/ir.py: gen_SmallIR", "peak/mapper/mapper.py: IRMapper.solve"]}
{"id": "C62", "title": "The register-file PE computes its instructions, in Python, in SMT and when mapped to", "statement": "The PE of examples/reg_file called in Python with any sequence of instructions writes to the destination register of each the sum, the nor, the complement or a copy of the contents of its source registers, and changes no other register and never register 0; it raises KeyError exactly when a source register was never written. The mappable PE, given an assembled instruction and the contents of the source registers, returns what the Python PE leaves in the destination register, and with destination 0 the initial value of rd. Mapping an instruction on words to the mappable PE succeeds, with a correct rule, exactly for the functions x + y, ~(x | y), x, y, ~x, ~y, 0, ~0 of two words and x, ~x, 0, ~0 of one word; for all others the mapper returns None.", "quantifier": "all instructions and programs of any length, all register contents, all inputs; for the mapping all functions on any number of words, all sound and complete solvers, both formulas and both encodings of index variables", "why_tests_cant": "The tests run 32 random instructions with nonzero registers and do not map; which functions are mapped is a statement about all instruction words and all functions.", "anchors": ["examples/reg_file/sim.py: RegPE_fc, RegPE_mappable_fc", "examples/reg_file/isa.py: ISA_fc", "examples/riscv/family.py: get_register_file", "tests/test_reg_pe.py: test_py, test_smt", "peak/mapper/mapper.py: IRMapper.solve"]}
{"id": "C63", "title": "The PE with a lookup table computes its instructions, and exactly these functions are mapped to it", "statement": "The PE of examples/PE_lut returns for every instruction the immediate, the sum or the chosen one of its words, and beside it the entry of the 8-bit table at the number formed by its three bits; every function of three bits is the table of some instruction. In the SMT family it returns the same for the assembled instruction. Mapping an instruction on words and bits succeeds, with a correct rule, exactly when it has at most two words and three bits, its word output is a constant, the sum of its two words or one of them chosen by a bit, and its bit output depends on the bits only; for all others the mapper returns None. The instruction in a rule is an instruction of the ISA.", "quantifier": "all widths, instructions and inputs; for the mapping all functions on any number of words and bits, all processes, all sound and complete solvers, both formulas and both encodings of index variables", "why_tests_cant": "No test maps to this PE; which functions are mapped is a statement about all instruction words, all functions and all solvers.", "anchors": ["examples/PE_lut/sim.py: gen_PE", "examples/PE_lut/isa.py: gen_isa", "peak/mapper/mapper.py: IRMapper.solve", "peak/assembler/assembler_util.py: generic_aadt_is_valid"]}
{"id": "C64", "title": "Exactly which instructions are mapped to the PE with floating-point black boxes", "statement": "Mapping an instruction on 16-bit words, with at most one black box, to the PE of examples/fp_pe with the simple formula succeeds, with a rule that is correct whatever the floating-point units compute, exactly when it is the sum, difference, or, and, or exclusive or of its two words (in either order) or of one of its at most two words and a constant, or returns the output of a black box of the class of the PE's adder, multiplier or square root on such operands. For every other instruction (integer multiplication, a box of another class, a box whose output is changed) the mapper returns None. It does not raise. The instruction in a rule is an instruction of the ISA.", "quantifier": "all functions on any positive number of words, with any black box of any class called on any function of the words; all sound and complete solvers; both encodings of index variables; all processes in which the assemblers built earlier are for types whose enums have a code other than 0 and whose unions have at least two, distinct options", "why_tests_cant": "tests/test_black_box_rr.py maps six instructions with z3; which instructions are mapped is a statement about all instruction words, wirings, functions and solvers, and about every function the black boxes may compute.", "anchors": ["examples/fp_pe/sim.py: PE_fc, ALU_fc, FPU_fc", "peak/float.py: float_lib_gen", "peak/black_box.py: BlackBox, get_black_boxes", "peak/mapper/mapper.py: IRMapper.solve", "peak/mapper/formula_constructor.py", "tests/test_black_box_rr.py: test_rr"]}
{"id": "C65", "title": "With path constraints on the instruction, a rule is found exactly when an allowed instruction computes the function", "statement": "ArchMapper(PE, path_constraints=...).process_ir_instruction(IR).solve(), for constraints on places inside the instruction of examples/sum_pe or examples/tagged_pe, with either formula, returns a correct rule whose constrained places hold allowed values exactly when some instruction of the ISA that meets the constraints of its option computes the IR function from two of its two or three words; otherwise it returns None. It does not raise. Constraints on an option do not exclude instructions with the other option.", "quantifier": "all sets of constraints with at most one on each place and at least one value each; all functions on any positive number of words; both PEs; both formulas and both encodings of index variables; all sound and complete solvers; all processes in which the assemblers built earlier are for types whose enums have a code other than 0 and whose unions have at least two, distinct options", "why_tests_cant": "tests/test_aadt_mapping.py: test_const_constraint maps one function with seven constraints; which functions are mapped under which constraints is a statement about all instruction words, wirings, functions and solvers.", "anchors": ["peak/mapper/mapper.py: ArchMapper, IRMapper, process_ir_instruction", "peak/mapper/formula_constructor.py", "examples/sum_pe/sim.py: PE_fc", "examples/tagged_pe/sim.py: PE_fc", "tests/test_aadt_mapping.py: test_const_constraint, run_constraint_test"]}
{"id": "C66", "title": "Functions of words are mapped to RISC-V exactly when one instruction computes them", "statement": "ArchMapper(R32I_mappable_fc, family=riscv family).process_ir_instruction(IR).solve(), with either formula, returns a correct rule exactly when IR takes at most two words and is an operation of the ALU on two different registers (inputs, or register 0), an operation of the ALU on a register and an immediate (12 bits signed for arithmetic, 5 bits for shifts), or a constant with low 12 bits 0; otherwise it returns None. It does not raise. On the assembled bits of an instruction the SMT simulator gives what it gives on the instruction, and the Python simulator can execute an instruction that is found.", "quantifier": "all functions on any positive number of words; all instructions, registers and program counters; all orders of the options of Inst; both formulas and both encodings of index variables; all sound and complete solvers; all processes in which the assemblers built earlier are for types whose enums have a code other than 0 and whose unions have at least two, distinct options", "why_tests_cant": "tests/test_aadt_mapping.py: test_riscv_rr maps one function (addition); which functions are mapped is a statement about all 2^29 and more instruction words, wirings, functions and solvers.", "anchors": ["examples/riscv/sim.py: R32I_fc, R32I_mappable_fc", "examples/riscv/isa.py: ISA_fc", "examples/riscv/family.py: SMTFamily", "peak/mapper/mapper.py: ArchMapper, IRMapper, process_ir_instruction", "tests/test_aadt_mapping.py: test_riscv_rr"]}
{"id": "C67", "title": "With a constraint on a data input, a rule is found exactly when one instruction computes the function for every allowed value", "statement": "ArchMapper(PE, path_constraints=...).process_ir_instruction(IR).solve(), for examples/sum_pe or examples/tagged_pe with allowed values for the input in0, which is not Const, and constraints on places inside the instruction, with either formula: a rule is returned exactly when some instruction of the ISA that meets the constraints of its option computes the IR function from in1 whichever of the allowed values in0 holds; otherwise None is returned. The rule gives in0 one allowed value, and stays a correct mapping with any other allowed value in its place. It does not raise. In particular adding an allowed value can only make the mapper return None.", "quantifier": "all nonempty lists of allowed values for in0; all sets of constraints on the instruction with at most one on each place and at least one value each; all functions on one word; both PEs; both formulas and both encodings of index variables; all sound and complete solvers; all processes as in C65", "why_tests_cant": "tests/test_aadt_mapping.py: test_non_const_constraint maps the identity with three lists of values; the claim ranges over all functions, values, instruction words, wirings and solvers.", "anchors": ["peak/mapper/mapper.py: ArchMapper, IRMapper, process_ir_instruction", "peak/mapper/formula_constructor.py", "examples/sum_pe/sim.py: PE_fc", "examples/tagged_pe/sim.py: PE_fc", "tests/test_aadt_mapping.py: test_non_const_constraint, run_constraint_test"]}
{"id": "C68", "title": "An IR instruction with a Const input is mapped exactly when some instruction with a place for the constant computes it", "statement": "ArchMapper(Arch).process_ir_instruction(IR).solve(), where IR has Const inputs, with the default formula, and with simple_formula=True if no instruction has two places of the type of a Const IR input and whether an instruction is valid does not depend on the constants: a rule is returned exactly when there are an instruction, a place inside it for every Const IR input and an input for every other IR input, all of the same type and unconstrained, such that for all inputs the architecture with the constants in their places computes the IR function; otherwise None is returned. For the PE of test_const with either formula, with words of any width, the functions of a constant and other words that are mapped are exactly the constant itself, with at most two other words, and the sum of two other words; every rule gives the constant to the immediate. If some IR input has no architecture input of its type that is Const exactly when it is, or some IR output has no architecture output of its type, has_bindings is False and the result is None without asking the solver.", "quantifier": "all architectures with one Const instruction and flat data inputs; all widths; all functions on any positive number of words; all constraints on the instruction with at most one on each place and at least one value each; both formulas and both encodings of index variables; all sound and complete solvers (any solver for the early outs); all processes as in C65", "why_tests_cant": "tests/test_aadt_mapping.py: test_const, test_const_tuple and the early-out tests map one function each with one solver; the claim ranges over all functions, widths, instruction words, wirings and solvers.", "anchors": ["peak/mapper/mapper.py: ArchMapper, IRMapper, process_ir_instruction, has_bindings", "tests/test_aadt_mapping.py: test_const, test_const_tuple, test_early_out_inputs, test_early_out_outputs"]}
{"id": "C69", "title": "The ARM builders keep their arguments, and the word tells them apart", "statement": "mov, add, and_, or_, eor, ldr, str and b of examples/arm return the instruction with the given registers, flags, offset and condition; with a register operand, that register and shift; without one, an immediate operand that stands for imm as a 32-bit word (8 bits rotated right by twice the rotation), and ValueError is raised exactly when no immediate operand does. encode gives different 32-bit words for different instructions.", "quantifier": "all integers for registers, shift, immediate, flags and offset; all conditions; all orders in which Python may number the options of the unions", "why_tests_cant": "tests/test_arm.py prints the words of a few instructions with immediate 0 or 1 and checks none; the claim ranges over all immediates and all pairs of instructions.", "anchors": ["examples/arm/asm.py: _imm, data, mov, add, and_, or_, eor, b, ldst, ldr, str", "examples/arm/isa.py: Inst, Operand, Cond", "peak/bitfield.py: encode"]}
{"id": "C70", "title": "The PE of examples/pe computes its instruction on the operands the modes choose", "statement": "In any sequence of calls of one PE made by gen_pe(num_inputs), each call returns the named operation on the operands chosen by the modes of its inputs (the instruction's constant, the input itself, or what an earlier call stored while the clock was enabled), the 1-bit result its condition code names (zero, sign, comparison after a subtraction, the lookup table, the 1-bit ALU result), and interrupt 0. The builders of examples/pe/asm.py give the instruction of that name. This holds for every number of inputs gen_pe is called with.", "quantifier": "all sequences of calls, all instructions, all operands, constants, modes, condition codes and tables, all numbers of inputs", "why_tests_cant": "tests/test_pe.py makes one call per operation with operands 1 and 3, condition Z and two inputs, and never uses a register or another code.", "anchors": ["examples/pe/sim.py: gen_pe", "examples/pe/isa.py: ALU, LUT, Inst", "examples/pe/asm.py: inst, add, sub, and_, or_, xor", "examples/pe/cond.py: cond", "examples/pe/mode.py: gen_register_mode"]}
{"id": "C71", "title": "The demo PEs and the example ALU compute the operations and flags their instructions name", "statement": "Each PE of examples/demo_pes returns the result its instruction names (sum with the constant carry-in, and/or, exclusive or, shifts by any amount; the second operand inverted on request; pe6: one ALU or the two in a row) and the flag it names: C is the carry out of an addition, Z says the result is 0 (pe5 turns it round for Xor with BIT One). So Add with Invert and BIT One subtracts and C is then the unsigned comparison, while no instruction of pe1, pe2 and pe3 subtracts. The ALU of examples/alu computes the five operations on words of any width and raises PeakNotImplementedError for anything else.", "quantifier": "all instructions, all 16-bit operands (examples/alu: all widths)", "why_tests_cant": "The tests map and compile these PEs and run examples/alu on a handful of sums; they do not run the demo PEs over their operands.", "anchors": ["examples/demo_pes/pe1/sim.py: gen_alu", "examples/demo_pes/pe2/sim.py: gen_alu", "examples/demo_pes/pe3/sim.py: gen_alu", "examples/demo_pes/pe4/sim.py: gen_alu", "examples/demo_pes/pe5/sim.py: gen_alu", "examples/demo_pes/pe6/sim.py: PE_fc", "examples/demo_pes/pe6/alu.py: ALU_fc", "examples/alu/sim.py: gen_alu"]}
{"id": "C72", "title": "Assembled classes: fields, comparison, directions", "statement": "For an assembled class cls = AssembledADT[T, assembler, bv_type], cls.name (products, tagged unions) and cls[key] (tuples, sums) is the assembled class of that field with the same assembler, bit-vector type and direction; Bit and bit-vector fields give the family's own class of the same width and signedness; the members of an Enum are reached the same way; a name that is no field raises; a class is `in` cls exactly if it is the class of a field. A field of an instance is an instance of that class. Two assembled classes are == exactly if they are the same and != otherwise; an assembled class == a plain ADT class exactly if it was made from it; for instances != is the opposite of ==. Flipping a directed class twice gives it back, and flipping and qualifying change only the direction. Modified ADT types are rejected.", "quantifier": "all ADT types, field names, assemblers, bit-vector types and directions, all values of instances, all states of the process", "why_tests_cant": "tests/test_assembled_adt.py checks the fields of four ISAs with ordinary field names and compares instances with !=, never classes.", "anchors": ["peak/assembler/assembled_adt.py: AssembledADTMeta.__getitem__, __getattr__, __eq__, __ne__, RESERVED_NAMES, AssembledADT.__ne__, MAADTMeta", "peak/assembler2/assembled_adt.py: AssembledADTMeta, MAADTMeta"]}
{"id": "C73", "title": "ISA constants in a function are replaced by their codes", "statement": "A function made by assemble_values_in_func behaves as the given function in which every constant X.m of an assembled type X stands for the integer code of m, whatever the arguments; everything else in it means what it meant. The pass itself fails only where a receiver of an attribute cannot be evaluated or a constant has no code.", "quantifier": "all function bodies, namespaces, enclosing functions, assembled types and arguments", "why_tests_cant": "unbounded syntax and all combinations of names in the three namespaces", "anchors": ["peak/assembler/utils.py:assemble_values_in_func", "peak/assembler/utils.py:ISABuilderAssembler"]}
{"id": "C74", "title": "The PDP-8 builders build what their comments say", "statement": "Each builder of examples/pdp8/asm.py returns an instruction that, executed by the PDP-8 simulator, has the effect its comment gives and no other, apart from the program counter: and_, tad, dca, isz, jmp and jms on the location given, the group-1 builders on accumulator and link (clear, complement, increment, rotate, shift, negate), the skips exactly under the condition named, hlt stops. Keywords set exactly the flags named; an unknown or repeated keyword is refused.", "quantifier": "all machine states, addresses, accumulators, links and keyword lists", "why_tests_cant": "examples/pdp8/test_pdp8.py compares words of instructions and runs a few programs on random values; the skips, glk and addresses beyond 127 are never executed", "anchors": ["examples/pdp8/asm.py: and_, tad, dca, isz, jmp, jms, opr1, opr2 and the builders made with them", "examples/pdp8/sim.py: PDP8.__call__"]}
{"id": "C75", "title": "The builders of the PE configure what their names say", "statement": "The PE of examples/pe1, called with the configuration a builder of its asm.py returns, gives the operation the builder is named after: sums, differences, the three slices of signed and unsigned products, bitwise operations, shifts, selection, absolute value, minima and maxima on the 16-bit result, the ten comparisons on the 1-bit result; with the default modes the inputs are used directly and no register changes, and modes given to add, and_, or_ and xor choose the operands.", "quantifier": "all states of the PE, all 16-bit and 1-bit inputs, all modes", "why_tests_cant": "tests run a few builders on random operands; 2^33 operand pairs and all register contents are out of reach", "anchors": ["examples/pe1/asm.py: inst and the builders", "examples/pe1/sim.py: PE.__call__, alu"]}
{"id": "C76", "title": "Register classes of a family", "statement": "In any process, whatever was requested, instantiated and called before, between and after: family.gen_register(T, init, has_enable) and family.gen_attr_register(T, init) give the same class for the same arguments and different classes for different ones; every instance starts with T(init), of type T; each call, prev, attribute read gives what the earlier uses of the same instance stored (an enabled call, any call without enable, an assignment of a value of type T), and instances do not share content; an assignment of another type raises and stores nothing; the class is assembled by the family it is asked from. The same holds for registers of the old gen_register2. Methods an instance does not have raise: an attribute register is neither called nor asked for prev, the others are not read or assigned as attributes, and a call with another number of arguments is a TypeError.", "quantifier": "all processes (interleavings of requests, instantiations and uses), all families, types, initial values that can be hashed, kinds of register", "why_tests_cant": "tests/test_register.py makes each register once with init 0 and has no two registers whose requests share the module-wide cache in different orders.", "anchors": ["peak/family.py: _RegFamily.gen_register, _RegFamily.gen_attr_register, _REG_CACHE, _ATTR_REG_CACHE", "peak/register.py: gen_register2"]}
{"id": "C77", "title": "Constructors of families", "statement": "family.get_constructor(T) can be called the same way in every family: for every product, tuple and tagged union type T and every value v of T, giving the fields of v positionally, by name in any order or as a prefix followed by names, each raw or already assembled, gives v in the Python family and the assembled form of v in the assembling families; default_bv does not change a product. Calling the assembled class itself with the fields gives the same. Positional arguments of a tagged union, a missing option, a wrong number of tuple fields, values of other types in the Python family, and a default of more than one bit are TypeErrors.", "quantifier": "all ADT types, all values, all ways of passing the arguments, all processes", "why_tests_cant": "tests/test_assembler.py calls from_fields on a few fixed types, always with all fields in declaration order.", "anchors": ["peak/family.py: PyFamily.get_constructor, _AsmFamily.get_constructor", "peak/assembler/assembled_adt.py: _product_from_fields, _tuple_from_fields, _taggedunion_from_fields, _sum_from_fields, AssembledADTMeta.__call__, RESERVED_NAMES"]}
{"id": "C78", "title": "Assembling a class keeps its interface", "statement": "For every Peak class with input and output types, whether it declares or inherits its __call__ and whether or not it is a BlackBox, decorating it with family.assemble(...) of PyFamily, PyXFamily or SMTFamily succeeds, leaves cls.input_t and cls.output_t as they were, and changes no other class; the call is the declared one, the rewritten one, and for black boxes in the SMT family the black-box call. A class without types is rejected by the families that rewrite. Result checks asked for with typecheck=True are made in every family.", "quantifier": "all class hierarchies, all families, whatever attributes the rewriting passes leave on the functions they make", "why_tests_cant": "The interface is carried in attributes of function objects that three nested decorators replace; tests check it for a few classes without inheritance.", "anchors": ["peak/family.py: _StdMix.assemble, _RewriterFamily.assemble, _BBFamily.assemble, SMTFamily.assemble, PyFamily.assemble", "peak/black_box.py: BlackBox.create_call", "peak/peak.py: PeakMeta.input_t, PeakMeta.output_t"]}
{"id": "C79", "title": "Wrapped circuits receive the word on their instruction port", "statement": "wrap_with_disassembler(PE, asm.disassemble, asm.width, asm.layout, inst_type) gives a circuit whose instruction port is Bits[asm.width] and whose other ports are those of PE: each bit of the PE's instruction port is driven exactly once, by the bit of the same number of the wrapper's port, so that the PE executes the instruction whose assembled word is applied; every other port is connected straight through. With a layout other than the PE's own each field gets the bits the layout gives to its name.", "quantifier": "all well-formed instruction types, all ports, any two assemblers of the type", "why_tests_cant": "The test wraps one PE with one product type of three fields; the wiring depends on the layout of every type.", "anchors": ["peak/rtl_utils.py: wrap_with_disassembler", "peak/assembler/assembler.py: Assembler.layout"]}
{"id": "C80", "title": "Assembler helpers of the RISC-V extension", "statement": "In examples/riscv_ext, asm_POPCNT, asm_CNTLZ and asm_CNTTZ return the instruction that writes the count of the source register to rd, whichever of rs and rs1 names the source, and raise ValueError unless rd and exactly one of the two are given; the builders exported from examples/riscv build instructions that do the same on the extension's simulator; get_fields and set_fields work on every instruction as C45 says; and using the extension does not change the instruction set of examples/riscv, nor the opcodes of its instructions.", "quantifier": "all registers, all argument combinations, all machine states, all histories of imports and uses of the two examples, all orders of the option names", "why_tests_cant": "Tests import both examples once in one order and build a few instructions; the instruction set is an object shared by two cached closures, so the effect depends on the history of the process.", "anchors": ["examples/riscv_ext/asm.py: asm_POPCNT, asm_CNTLZ, asm_CNTTZ", "examples/riscv_ext/isa.py: ISA_fc", "examples/riscv/asm.py: set_fields, get_fields, CONSTRUCTORS", "examples/riscv/isa.py: ISA_fc"]}
{"id": "C81", "title": "Assembler helpers of the RISC-V example with multiplication", "statement": "In examples/riscv_m, get_fields returns exactly the fields each instruction has, within their ranges, also for multiplications and divisions; set_fields with values that fit succeeds, reading them back gives the requested values and nothing else changes; with a value that does not fit it raises ValueError; the builders build instructions that the simulator executes as the operation they are named after.", "quantifier": "all instructions, all combinations of requested fields and integers, all machine states", "why_tests_cant": "The module is an untested copy of examples/riscv/asm.py on a larger instruction set; every combination of fields, values and instructions is an input.", "anchors": ["examples/riscv_m/asm.py: set_fields, get_fields, CONSTRUCTORS, asm_ADD and the other builders", "examples/riscv_m/isa.py: MulDivInst, AluInst"]}
{"id": "C82", "title": "Values of a rule keep their meaning when the family changes", "statement": "Moving the constants of a rewrite rule's binding to another family (rebind_value, rebind_binding) keeps every line in order, every path and Unbound, and the width, number and class of every constant; a plain Python constant moved to SMT and back is the value it was; anything that is not a constant vector or bit is refused with ValueError; a rebound binding contains no assembled values, so strip_aadt leaves it alone.", "quantifier": "all bindings, values, widths and both families", "why_tests_cant": "The tests rebind the few rules the solver returns; every width, number, class and mixture of lines is an input.", "anchors": ["peak/mapper/utils.py: rebind_value, rebind_binding", "peak/mapper/mapper.py: strip_aadt"]}
{"id": "C83", "title": "Ports of a generated circuit have the types of the annotations", "statement": "In the Magma family, the port types made from the annotations of __call__ have the annotations' shape: vectors keep width and signedness whichever family they are written in, bits stay bits, algebraic types become their assembled versions, modifiers disappear, tuples are treated element by element, and other classes stay.", "quantifier": "all annotations: arbitrarily nested tuples, modifiers, widths and families", "why_tests_cant": "Annotations nest without bound and the code distinguishes classes by subclass tests.", "anchors": ["peak/family.py: MagmaFamily.assemble (magmafy)"]}
{"id": "C84", "title": "Functions of words are mapped to the RISC-V simulator with multiplication exactly when one instruction computes them", "statement": "ArchMapper(R32I_mappable_fc of examples/riscv_m, family=riscv_m family).process_ir_instruction(IR).solve(), with either formula, returns a correct rule exactly when IR takes at most three words and is what one instruction of RV32IM gives as the value of its destination register or as the next address: an operation of the ALU or a multiplication or division on two different registers, an operation of the ALU with an immediate, an upper immediate, an address plus an upper immediate, the next address, a jump, an indirect jump, or a conditional branch, with every input in at most one of the places program counter, first and second register. Otherwise it returns None; it does not raise. Multiplication and division are those of the manual. On the assembled bits of an instruction the SMT simulator gives what it gives on the instruction.", "quantifier": "all functions on any positive number of words; all instructions, registers and program counters; all orders of the options of Inst; both formulas and both encodings of index variables; all sound and complete solvers; all processes in which the assemblers built earlier are for types whose enums have a code other than 0 and whose unions have at least two, distinct options", "why_tests_cant": "No test maps anything onto this simulator; which functions are mapped is a statement about all instruction words, wirings, outputs, functions and solvers.", "anchors": ["examples/riscv_m/sim.py: R32I_fc, R32I_mappable_fc", "examples/riscv_m/isa.py: ISA_fc", "examples/riscv_m/family.py: SMTFamily", "peak/mapper/mapper.py: ArchMapper, IRMapper, process_ir_instruction"]}
{"id": "C85", "title": "Functions of words are mapped to the bit-counting RISC-V simulator exactly when one instruction computes them", "statement": "ArchMapper(R32I_mappable_fc of examples/riscv_ext, family=riscv_ext family).process_ir_instruction(IR).solve(), with either formula, returns a correct rule exactly when IR takes at most three words and is what one instruction of the extended instruction set gives as the value of its destination register or as the next address: the number of ones, leading zeros or trailing zeros of a register, an operation of the ALU on two different registers or with an immediate, an upper immediate, an address plus an upper immediate, the next address, a jump, an indirect jump, or a conditional branch, with every input in at most one of the places program counter, first and second register. Otherwise it returns None; it does not raise. On the assembled bits of an instruction the SMT simulator gives what it gives on the instruction.", "quantifier": "all functions on any positive number of words; all instructions, registers and program counters; all orders of the options of Inst; both formulas and both encodings of index variables; all sound and complete solvers; all processes in which the assemblers built earlier are for types whose enums have a code other than 0 and whose unions have at least two, distinct options", "why_tests_cant": "The tests run the bit counter on random words only and map nothing onto this simulator; which functions are mapped is a statement about all instruction words, wirings, outputs, functions and solvers.", "anchors": ["examples/riscv_ext/sim.py: R32I_fc, BitCounter_fc, R32I_mappable_fc", "examples/riscv_ext/isa.py: ISA_fc", "examples/riscv_ext/family.py: SMTFamily", "peak/mapper/mapper.py: ArchMapper, IRMapper, process_ir_instruction"]}
{"id": "C86", "title": "Which closures the mapper takes, and which inputs are Const", "statement": "ArchMapper, process_ir_instruction and Multi take a family closure whose result contains exactly one Peak class with input and output types, wherever in the result it stands, and work on that class; anything else is a ValueError. An input leaf is solved for, rather than quantified over, exactly when it, or something it is part of, is wrapped in Const; the other modifiers around a type are kept in the same way, and each leaf occurs once. The type the mapper works on is the input type with every modifier removed, wherever it stands, and nothing else changed.", "quantifier": "all results of closures; all input types with modifiers at any places, of any depth, with distinct field names", "why_tests_cant": "Input types nest arbitrarily and modifiers can stand at any level; the tests only wrap whole inputs in Const, and only return single classes.", "anchors": ["peak/mapper/mapper.py:_get_peak_cls", "peak/mapper/mapper.py:_create_path_to_adt", "peak/mapper/mapper.py:SMTMapper.__init__", "peak/mapper/mapper.py:SMTMapper.path_to_adt", "peak/mapper/multi.py:parse_peak_fc"]}
{"id": "C87", "title": "Initial vectors of the exists-forall search", "statement": "With num_initial_vectors = k >= 0, external_loop_solve never tries a candidate that fails when all universally quantified variables are 0, or 1, or -1, nor one that fails on one of k further vectors drawn from all assignments; with a negative number it starts from no vectors.", "quantifier": "all formulas, sorts of the variables, solvers' choices of models, seeds and bounds", "why_tests_cant": "a wrong vector never makes an answer wrong, it only lets useless candidates through, for formulas that fail on just that vector", "anchors": ["peak/mapper/mapper.py:_gen_initial", "peak/mapper/mapper.py:_gen_random", "peak/mapper/mapper.py:_int_to_pysmt", "peak/mapper/mapper.py:external_loop_solve"]}
{"id": "C88", "title": "Mapping to the architecture with two immediates", "statement": "For the architecture of test_basic_rr (register-register and register-immediate instructions, two immediates of which one is read), ArchMapper finds a rule for an IR instruction that returns a function of n words, of which the first may be Const, exactly if some instruction computes the function: a fixed word, a word plus a fixed word, the sum or product of two words, the constant, or a word plus the constant; the rule is then correct, and otherwise the result is None. With simple_formula=True likewise.", "quantifier": "all functions of n >= 1 words, both encodings of the index variables, all sound and complete solvers, both formulas", "why_tests_cant": "the test maps three functions with one solver; that no other function is mapped, and that every rule is right for all words, ranges over all functions and all models the solver may choose", "anchors": ["tests/test_basic_rr.py:arch_fc", "tests/test_basic_rr.py:test_basic", "peak/mapper/mapper.py:IRMapper", "peak/mapper/mapper.py:ArchMapper"]}
{"id": "C89", "title": "Programs for the architecture with two immediates", "statement": "For the architecture of test_basic_rr and an IR instruction that returns a function of m words, Multi with n instructions returns a program exactly if some program of n instructions, whose wiring takes each input of the IR instruction once, computes the function for all words; whatever is returned is such a program. In particular two instructions are found for (a + b) * c, and one instruction is never enough for three words.", "quantifier": "all functions of m words, all n >= 1, both encodings of the index variables, both ways of passing intermediate results, all sound and complete solvers", "why_tests_cant": "the test runs one function with one solver and only checks that something is returned; that the program is right for all words, and that programs are found whenever they exist, ranges over all functions and all models", "anchors": ["tests/test_basic_rr.py:test_multi", "tests/test_basic_rr.py:arch_fc", "peak/mapper/multi.py:Multi"]}
{"id": "C90", "title": "Mapping to the adder/inverter of test_simple", "statement": "With the architecture of tests/test_aadt_mapping.py's test_simple, whose Const instruction is a one-field Product holding an Enum with the members add and not_, ArchMapper(...).process_ir_instruction(ir).solve(...) returns a rewrite rule, and a correct one, exactly when the IR instruction's function of n words is the sum of two words or the complement of one of at most two words; otherwise it returns None. This holds with and without simple_formula and with Binary and OneHot index variables.", "quantifier": "every function of every number of words, every word width, both formulas, both encodings, every sound and complete solver, every history of the process", "why_tests_cant": "The test maps one function (the sum of two 8-bit words); which of all the functions of words get a rule cannot be enumerated.", "anchors": ["tests/test_aadt_mapping.py: test_simple", "peak/mapper/mapper.py: ArchMapper.process_ir_instruction, IRMapper.solve", "peak/assembler/assembled_adt.py: AssembledADT"]}
{"id": "C91", "title": "A PE with black boxes computes from the outputs set for them", "statement": "For the PE of tests/test_black_box.py with three black boxes in the SMT family, after any sequence of _set_outputs, calls and _get_inputs: a call returns what the instruction selects (input plus 5, the first black box's output, the second's, or the complement of the third's), computed from the outputs last set; it raises ValueError exactly when some black box has had no outputs set; each black box reports the value it was given at the last call that reached it with outputs set (the input, its complement, the input), also when that call raised later; a call never changes the outputs set. In the Python family the PE returns x+5, 0, 0, -1.", "quantifier": "every history of operations on the PE, every instruction and every input", "why_tests_cant": "The test sets all outputs before each of four calls with fixed symbols; other orders, missing outputs and stale inputs after an exception depend on the whole history.", "anchors": ["tests/test_black_box.py: PE_fc, test_black_box_py, test_black_box_smt", "peak/black_box.py: BlackBox.create_call, _get_inputs, _set_outputs"]}
{"id": "C92", "title": "A word from fields at the ranges of any layout", "statement": "from_fields puts a word together from field values and a layout, a dictionary that gives every field its range of bits. When a layout has two or more ranges, it is refused with ValueError if and only if some range is empty, some range leaves the word, or two ranges share a bit; the order in which the dictionary lists the ranges does not matter. With any layout that is not at fault in this way, including layouts with gaps and layouts with a single range, and field values as wide as their ranges, the result is a word of the given width: it has the bits of every field at its range, and the default bit at every position no range has. A single range is not checked, so one that leaves the word ends with AssertionError instead of ValueError.", "quantifier": "all word widths, all lists of ranges with their field values in every order, all default bits", "why_tests_cant": "The tests only use the layouts the Assembler computes, which are in order, without gaps inside a product and never at fault; an assembler class supplied by a user may give any layout.", "anchors": ["peak/assembler/assembled_adt.py:_create_from_layout", "peak/assembler2/assembler.py:_create_from_layout"]}
{"id": "C93", "title": "Hand-made rules for the adder/subtracter of test_custom_rr, and mapping to it", "statement": "For the PE of test_custom_rr (an instruction with an Op, add or sub, and a bit sel; both outputs are the sum or difference, inverted if sel is 0): RewriteRule(...) with the two IR words at the operands in either order, a two-bit vector at inst.Op, a Bit at inst.sel and one of the outputs is made exactly when the vector is the code of add or sub, and raises ValueError otherwise. verify() of the rule returns None exactly when the IR function of two words is the function the PE computes with that instruction, for all words, and otherwise returns two words for which they differ. ArchMapper finds a rule for an IR function of n words exactly when it is the sum or a difference of two words or the complement of one of these, and the rule is correct; otherwise the result is None.", "quantifier": "all word widths, all functions of all numbers of words, all codes, both orders of the operands, both outputs, both formulas, both encodings, all histories of the process", "why_tests_cant": "The test verifies two rules for one function at one width.", "anchors": ["tests/test_aadt_mapping.py:test_custom_rr", "peak/mapper/mapper.py:RewriteRule", "peak/mapper/mapper.py:ArchMapper"]}
{"id": "C94", "title": "Mapping to a PE with an integer adder and a floating-point adder", "statement": "For the PE that adds two words either as integers or with a floating-point adder given as a black box, for words of any width, searching a rewrite rule with simple_formula=True for any IR instruction on words with at most one black box returns a correct rule exactly when the instruction is the sum of two words (a box, if there is one, not mattering) or the output of a floating-point adder on the two words in either order; otherwise it returns None, and it never raises. In particular the sum and the floating-point sum are found and the floating-point product is not.", "quantifier": "all word widths, all IR instructions on any number of words with at most one black box of any class and any inputs, all functions the black boxes may compute, all sound and complete solvers, all processes with enums that are not too large", "why_tests_cant": "the test tries three instructions in 8-bit words with one solver; the claim is about every instruction, every behaviour of the black boxes, every width and every solver", "anchors": ["tests/test_black_box_rr.py:test_simple", "peak/mapper/mapper.py:ArchMapper.process_ir_instruction", "peak/mapper/mapper.py:IRMapper", "peak/black_box.py:BlackBox"]}
