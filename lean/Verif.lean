import Verif.Model.Basic
import Verif.Model.Types
import Verif.Model.Validator
import Verif.Model.Assembler
import Verif.Lemmas.Basic
import Verif.Lemmas.Validator
import Verif.Lemmas.Validator2
import Verif.Lemmas.Validator3
import Verif.Props.Validator
import Verif.Props.Assembler
import Verif.Props.AssemblerLayout
import Verif.Spec.Assembler
import Verif.Spec.AsmWidths
import Verif.Lemmas.Enum
import Verif.Lemmas.Encoding
import Verif.Lemmas.AsmGood
import Verif.Lemmas.AsmSum
import Verif.Lemmas.AsmBuild
import Verif.Lemmas.AsmEnv
import Verif.Lemmas.AsmWidths
import Verif.Model.Sub
import Verif.Lemmas.AsmUsed
import Verif.Model.Layout
import Verif.Model.Assembler2
import Verif.Lemmas.Asm2
import Verif.Lemmas.Layout
import Verif.Props.Assembler2
import Verif.Model.AssembledADT
import Verif.Props.AssembledADT
import Verif.Model.AutoAssembler
import Verif.Model.AutoLayout
import Verif.Lemmas.AutoAssembler
import Verif.Props.AutoAssembler
import Verif.Spec.AutoLayout
import Verif.Props.AutoLayout
import Verif.Model.Bitfield
import Verif.Props.Bitfield
import Verif.Model.Register
import Verif.Props.Register
import Verif.Props.RegGen
import Verif.Props.Construct
import Verif.Props.Assemble
import Verif.Model.PeakAttr
import Verif.Props.PeakAttr
import Verif.Model.FamilyClosure
import Verif.Props.FamilyClosure
import Verif.Model.BlackBox
import Verif.Props.BlackBox
import Verif.Model.Features
import Verif.Props.Features
import Verif.Model.IR
import Verif.Props.IR
import Verif.Model.Float
import Verif.Props.Float
import Verif.Model.IndexVar
import Verif.Props.IndexVar
import Verif.Model.Formula
import Verif.Props.Formula
import Verif.Model.Bindings
import Verif.Lemmas.Bindings
import Verif.Props.Bindings
import Verif.Props.Multi
import Verif.Model.BBFormula
import Verif.Props.BBFormula
import Verif.Model.EfSmt
import Verif.Props.EfSmt
import Verif.Model.RewriteRule
import Verif.Props.RewriteRule
import Verif.Model.SmtForms
import Verif.Spec.Forms
import Verif.Lemmas.SmtForms
import Verif.Props.SmtForms
import Verif.Model.SimplifyBinding
import Verif.Spec.Raw
import Verif.Lemmas.SimplifyBinding
import Verif.Lemmas.SimplifyUnbound
import Verif.Props.SimplifyBinding
import Verif.Props.SimplifyUnbound
import Verif.Model.Verify
import Verif.Spec.Verify
import Verif.Lemmas.Verify
import Verif.Props.Verify
import Verif.Lemmas.RawForms
import Verif.Lemmas.Shapes
import Verif.Model.IRMapper
import Verif.Spec.IRMapper
import Verif.Lemmas.IRMapper
import Verif.Lemmas.IRMapper2
import Verif.Props.IRMapper
import Verif.Props.FreeCons
import Verif.Props.FreeConsEx
import Verif.Model.RiscV
import Verif.Spec.RiscV
import Verif.Lemmas.RiscV
import Verif.Props.RiscV
import Verif.Model.RiscVExt
import Verif.Spec.RiscVExt
import Verif.Props.RiscVExt
import Verif.Model.RiscVAsm
import Verif.Spec.RiscVAsm
import Verif.Props.RiscVAsm
import Verif.Model.PE1
import Verif.Spec.PE1
import Verif.Props.PE1
import Verif.Model.Multi
import Verif.Spec.Multi
import Verif.Lemmas.Multi
import Verif.Props.MultiMap
import Verif.Model.SimpleFormula
import Verif.Spec.SimpleFormula
import Verif.Lemmas.SimpleFormula
import Verif.Lemmas.SimpleFormula2
import Verif.Props.SimpleFormula
import Verif.Props.SimpleFormulaEx
import Verif.Model.Pico
import Verif.Spec.Pico
import Verif.Props.Pico
import Verif.Props.PicoEncode
import Verif.Model.OldMapper
import Verif.Spec.OldMapper
import Verif.Lemmas.OldMapper
import Verif.Props.OldMapper
import Verif.Props.OldMapperEx
import Verif.Model.Pdp8
import Verif.Spec.Pdp8
import Verif.Props.Pdp8
import Verif.Props.Pdp8Ex
import Verif.Model.RiscVM
import Verif.Spec.RiscVM
import Verif.Props.RiscVM
import Verif.Model.Rewriter
import Verif.Spec.Rewriter
import Verif.Lemmas.Rewriter
import Verif.Lemmas.Rewriter2
import Verif.Props.Rewriter
import Verif.Model.ValueForms
import Verif.Spec.ValueForms
import Verif.Lemmas.ValueForms
import Verif.Lemmas.ValueForms2
import Verif.Props.ValueForms
import Verif.Lemmas.ConstLeaves
import Verif.Model.SumPe
import Verif.Spec.SumPe
import Verif.Lemmas.SumPe
import Verif.Props.SumPe
import Verif.Spec.InstMap
import Verif.Lemmas.InstMap
import Verif.Model.WordIr
import Verif.Lemmas.WordIr
import Verif.Props.InstMap
import Verif.Props.SumPeAny
import Verif.Model.RegPe
import Verif.Spec.RegPe
import Verif.Lemmas.RegPe
import Verif.Props.RegPe
import Verif.Model.LutPe
import Verif.Spec.LutPe
import Verif.Lemmas.LutPe
import Verif.Props.LutPe
import Verif.Spec.Blind
import Verif.Props.Blind
import Verif.Lemmas.Accepts
import Verif.Lemmas.AcceptsRaw
import Verif.Props.Accepts
import Verif.Props.InstMapKnown
import Verif.Model.FpPe
import Verif.Spec.FpPe
import Verif.Lemmas.FpPe
import Verif.Props.FpPe
import Verif.Spec.SumPeCons
import Verif.Props.SumPeCons
import Verif.Lemmas.InstMapC
import Verif.Props.InstMapC
import Verif.Props.SumPeValues
import Verif.Model.RiscVMap
import Verif.Lemmas.RawGet
import Verif.Lemmas.RiscVMap
import Verif.Spec.RiscVMap
import Verif.Lemmas.RiscVMapPe
import Verif.Props.RiscVMap
import Verif.Spec.RiscVMMap
import Verif.Props.RiscVMMap
import Verif.Spec.RiscVXMap
import Verif.Props.RiscVXMap
import Verif.Lemmas.InstMapK
import Verif.Props.InstMapK
import Verif.Model.ConstPe
import Verif.Spec.ConstPe
import Verif.Props.ConstPe
import Verif.Props.EarlyOut
import Verif.Model.Arm
import Verif.Spec.Arm
import Verif.Props.Arm
import Verif.Model.FloatLib
import Verif.Props.FloatLib
import Verif.Props.AadtBits
import Verif.Model.ExPe
import Verif.Props.ExPe
import Verif.Model.DemoPe
import Verif.Props.DemoPe
import Verif.Model.AadtClass
import Verif.Props.AadtClass
import Verif.Model.IsaConst
import Verif.Spec.IsaConst
import Verif.Props.IsaConst
import Verif.Model.Pdp8Asm
import Verif.Spec.Pdp8Asm
import Verif.Props.Pdp8Asm
import Verif.Model.PE1Asm
import Verif.Spec.PE1Asm
import Verif.Props.PE1Asm
import Verif.Model.RtlUtils
import Verif.Spec.RtlUtils
import Verif.Props.RtlUtils
import Verif.Model.RiscVAsmX
import Verif.Spec.RiscVAsmX
import Verif.Props.RiscVAsmX
import Verif.Props.RiscVNs
import Verif.Props.Conv
import Verif.Props.RuleRight
import Verif.Props.FrontEnd
import Verif.Props.NestedConst
import Verif.Props.OneField
import Verif.Props.EfInit
import Verif.Props.AsmWidths
import Verif.Props.IndexWidth
import Verif.Props.SimpleConsts
import Verif.Props.BasicPe
import Verif.Props.BasicPeConst
import Verif.Model.BasicPeMulti
import Verif.Props.BasicPeMulti
import Verif.Spec.BasicPeMulti
import Verif.Props.BasicPeProg
import Verif.Props.AddNotPe
import Verif.Model.CustomPe
import Verif.Spec.CustomPe
import Verif.Props.CustomPe
import Verif.Model.FpAddPe
import Verif.Spec.FpAddPe
import Verif.Props.FpAddPe
import Verif.Props.BoxPe
import Verif.Spec.FromLayout
import Verif.Props.FromLayout
