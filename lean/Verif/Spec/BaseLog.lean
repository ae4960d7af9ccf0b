import Verif.Model.Base
/-
  Specification vocabulary about the calls made to the underlying allocator (logs are newest first).
-/
namespace Blink

/-- The blocks obtained and not yet given back according to the log, newest first. -/
def openBlocks : List BaseEvent → List BaseBlk
  | [] => []
  | .alloc l s :: t => ⟨s.addr, s.len, l⟩ :: openBlocks t
  | .refused _ :: t => openBlocks t
  | .dealloc a _ :: t => (openBlocks t).eraseP (fun b => decide (b.addr = a))

/-- Every `deallocate` in the log named a block open at that moment, with a fitting layout. -/
def FreesOK : List BaseEvent → Prop
  | [] => True
  | .dealloc a l :: t =>
    (∃ b ∈ openBlocks t, b.addr = a ∧ b.req.align = l.align ∧ b.req.size ≤ l.size ∧ l.size ≤ b.len) ∧ FreesOK t
  | .alloc _ _ :: t => FreesOK t
  | .refused _ :: t => FreesOK t

/-- Total length of blocks. -/
def totalLen (bs : List BaseBlk) : Nat := (bs.map (·.len)).sum

end Blink
