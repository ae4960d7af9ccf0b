import Verif.Model.GlobalProxy
import Verif.Proofs.Mem
import Verif.Proofs.Frame
/-
  What a computation does depends only on those answers of the underlying allocator that it asks for.
-/
namespace Blink

/-- The same world with other answers of the underlying allocator. -/
def World.ora (w : World) (o : Nat → Option Slice) : World := { w with oracle := o }

/-- `o` gives the same first `n` answers as `w`. -/
def Agree (w : World) (n : Nat) (o : Nat → Option Slice) : Prop := ∀ k, k < n → o k = w.oracle k

theorem Agree.weaken {w w' : World} {n n' : Nat} {o} (h : Agree w' n' o) (ho : w'.oracle = w.oracle) (hn : n ≤ n') : Agree w n o :=
  fun k hk => by rw [h k (by omega), ho]

/-- What `f` does depends only on the answers it gets. -/
structure OraM {α : Type} (f : M α) : Prop where
  rel : ∀ {w a w'}, f w = .ok (a, w') → w'.oracle = w.oracle ∧ w.calls ≤ w'.calls ∧
    ∀ o, Agree w w'.calls o → f (w.ora o) = .ok (a, w'.ora o)

theorem OraM.pure {α : Type} (x : α) : OraM (Pure.pure x : M α) :=
  ⟨fun h => by cases h; exact ⟨rfl, Nat.le_refl _, fun o _ => rfl⟩⟩

theorem OraM.bind {α β : Type} {x : M α} {f : α → M β} (hx : OraM x) (hf : ∀ a, OraM (f a)) : OraM (x >>= f) := by
  refine ⟨fun {w b w'} h => ?_⟩
  obtain ⟨a, w1, h1, h2⟩ := mbind_inv h
  obtain ⟨o1, c1, k1⟩ := hx.rel h1
  obtain ⟨o2, c2, k2⟩ := (hf a).rel h2
  refine ⟨o2.trans o1, Nat.le_trans c1 c2, fun o ho => ?_⟩
  rw [bind_ok (k1 o (ho.weaken rfl c2))]
  exact k2 o (ho.weaken o1.symm (Nat.le_refl _))

/-- A computation that does not touch the underlying allocator's answers. -/
theorem OraM.quiet {α : Type} {f : M α} (h : ∀ {w a w'}, f w = .ok (a, w') → w'.oracle = w.oracle ∧ w'.calls = w.calls ∧
    ∀ o, f (w.ora o) = .ok (a, w'.ora o)) : OraM f :=
  ⟨fun he => ⟨(h he).1, Nat.le_of_eq (h he).2.1.symm, fun o _ => (h he).2.2 o⟩⟩

theorem OraM.ub {α : Type} (why : String) : OraM (Blink.ub why : M α) := .quiet fun he => by cases he

theorem OraM.require (p : Prop) [Decidable p] (why : String) : OraM (Blink.require p why) := by
  refine .quiet fun {w a w'} he => ?_
  unfold Blink.require at he ⊢
  split at he
  · cases he; rename_i hp; exact ⟨rfl, rfl, fun o => by rw [if_pos hp]⟩
  · cases he

theorem OraM.dassert (p : Prop) [Decidable p] (why : String) : OraM (Blink.dassert p why) := by
  refine .quiet fun {w a w'} he => ?_
  unfold Blink.dassert at he ⊢
  split at he
  · cases he
  · cases he; rename_i hp; exact ⟨rfl, rfl, fun o => if_neg hp⟩

theorem OraM.addU (a b : Nat) : OraM (Blink.addU a b) := by
  refine .quiet fun {w a w'} he => ?_
  unfold Blink.addU at he ⊢
  split at he
  · cases he; rename_i hp; exact ⟨rfl, rfl, fun o => if_pos hp⟩
  · cases he

theorem OraM.subU (a b : Nat) : OraM (Blink.subU a b) := by
  refine .quiet fun {w a w'} he => ?_
  unfold Blink.subU at he ⊢
  split at he
  · cases he; rename_i hp; exact ⟨rfl, rfl, fun o => if_pos hp⟩
  · cases he

theorem OraM.loadWord (a : Nat) : OraM (Blink.loadWord a) := by
  refine .quiet fun {w b w'} he => ?_
  unfold Blink.loadWord at he ⊢
  split at he
  · rename_i hp
    cases hd : decodeWord w.mem a with
    | none => rw [hd] at he; cases he
    | some u =>
      rw [hd] at he; cases he
      refine ⟨rfl, rfl, fun o => ?_⟩
      rw [if_pos (show a % 8 = 0 ∧ (w.ora o).accessible a 8 = true from hp), show (w.ora o).mem = w.mem from rfl, hd]
  · cases he

theorem OraM.storeWord (a u : Nat) : OraM (Blink.storeWord a u) := by
  refine .quiet fun {w b w'} he => ?_
  unfold Blink.storeWord at he ⊢
  split at he
  · cases he; rename_i hp; exact ⟨rfl, rfl, fun o => if_pos hp⟩
  · cases he

theorem OraM.copyNonoverlapping (src dst n : Nat) : OraM (Blink.copyNonoverlapping src dst n) := by
  refine .quiet fun {w b w'} he => ?_
  unfold Blink.copyNonoverlapping at he ⊢
  split at he
  · cases he; rename_i hp; exact ⟨rfl, rfl, fun o => if_pos hp⟩
  · cases he

theorem OraM.writeZeros (a n : Nat) : OraM (Blink.writeZeros a n) := by
  refine .quiet fun {w b w'} he => ?_
  unfold Blink.writeZeros at he ⊢
  split at he
  · cases he; rename_i hp; exact ⟨rfl, rfl, fun o => if_pos hp⟩
  · cases he

theorem OraM.copyByte (src dst : Nat) : OraM (Blink.copyByte src dst) := by
  refine .quiet fun {w b w'} he => ?_
  unfold Blink.copyByte at he ⊢
  split at he
  · cases he; rename_i hp; exact ⟨rfl, rfl, fun o => if_pos hp⟩
  · cases he

theorem OraM.baseDealloc (addr : Nat) (l : Layout) : OraM (Blink.baseDealloc addr l) := by
  refine .quiet fun {w b w'} he => ?_
  unfold Blink.baseDealloc at he ⊢
  cases hf : w.held.find? (fun b => b.fits addr l) with
  | none => rw [hf] at he; cases he
  | some c =>
    rw [hf] at he; cases he
    refine ⟨rfl, rfl, fun o => ?_⟩
    rw [show (w.ora o).held = w.held from rfl, hf]
    rfl

theorem OraM.baseAlloc (l : Layout) : OraM (Blink.baseAlloc l) := by
  refine ⟨fun {w b w'} he => ?_⟩
  unfold Blink.baseAlloc at he ⊢
  cases ho : w.oracle w.calls with
  | none =>
    rw [ho] at he; cases he
    refine ⟨rfl, Nat.le_succ _, fun o hk => ?_⟩
    rw [show (w.ora o).oracle (w.ora o).calls = none from (hk _ (Nat.lt_succ_self _)).trans ho]
    rfl
  | some sl =>
    rw [ho] at he
    dsimp only at he
    split at he
    · rename_i hp
      cases he
      refine ⟨rfl, Nat.le_succ _, fun o hk => ?_⟩
      rw [show (w.ora o).oracle (w.ora o).calls = some sl from (hk _ (Nat.lt_succ_self _)).trans ho]
      exact if_pos hp
    · cases he

theorem OraM.baseResize (g : Bool) (p : Nat) (old new : Layout) : OraM (Blink.baseResize g p old new) := by
  refine ⟨fun {w b w'} he => ?_⟩
  unfold Blink.baseResize at he ⊢
  cases hf : w.held.find? (fun b => b.fits p old) with
  | none => rw [hf] at he; cases he
  | some c =>
    rw [hf] at he
    dsimp only at he
    split at he
    · cases he
    · rename_i h1
      split at he
      · cases he
      · rename_i h2
        cases ho : w.oracle w.calls with
        | none =>
          rw [ho] at he; cases he
          refine ⟨rfl, Nat.le_succ _, fun o hk => ?_⟩
          rw [show (w.ora o).held = w.held from rfl, hf, show (w.ora o).oracle (w.ora o).calls = none from (hk _ (Nat.lt_succ_self _)).trans ho]
          dsimp only
          rw [if_neg h1, if_neg h2]
          rfl
        | some sl =>
          rw [ho] at he
          dsimp only at he
          split at he
          · rename_i hp
            cases he
            refine ⟨rfl, Nat.le_succ _, fun o hk => ?_⟩
            rw [show (w.ora o).held = w.held from rfl, hf, show (w.ora o).oracle (w.ora o).calls = some sl from (hk _ (Nat.lt_succ_self _)).trans ho]
            dsimp only
            rw [if_neg h1, if_neg h2]
            exact if_pos hp
          · cases he

/-! ### The arena -/

/-- Close a goal about one call. -/
syntax "oram1" : tactic
macro_rules | `(tactic| oram1) => `(tactic| exact OraM.pure _)
macro_rules | `(tactic| oram1) => `(tactic| exact OraM.ub _)
macro_rules | `(tactic| oram1) => `(tactic| exact OraM.require _ _)
macro_rules | `(tactic| oram1) => `(tactic| exact OraM.dassert _ _)
macro_rules | `(tactic| oram1) => `(tactic| exact OraM.addU _ _)
macro_rules | `(tactic| oram1) => `(tactic| exact OraM.subU _ _)
macro_rules | `(tactic| oram1) => `(tactic| exact OraM.loadWord _)
macro_rules | `(tactic| oram1) => `(tactic| exact OraM.storeWord _ _)
macro_rules | `(tactic| oram1) => `(tactic| exact OraM.copyNonoverlapping _ _ _)
macro_rules | `(tactic| oram1) => `(tactic| exact OraM.writeZeros _ _)
macro_rules | `(tactic| oram1) => `(tactic| exact OraM.copyByte _ _)
macro_rules | `(tactic| oram1) => `(tactic| exact OraM.baseDealloc _ _)
macro_rules | `(tactic| oram1) => `(tactic| exact OraM.baseAlloc _)
macro_rules | `(tactic| oram1) => `(tactic| exact OraM.baseResize _ _ _ _)
macro_rules | `(tactic| oram1) => `(tactic| assumption)

/-- Take apart a function of the arena. -/
macro "oram" : tactic => `(tactic| repeat' first | intro _ | oram1 | refine OraM.bind ?_ ?_ | split)

theorem OraM.loadCursor (c : Nat) : OraM (Blink.loadCursor c) := .loadWord _
theorem OraM.loadEnd (c : Nat) : OraM (Blink.loadEnd c) := .loadWord _
theorem OraM.loadPrev (c : Nat) : OraM (Blink.loadPrev c) := .loadWord _
theorem OraM.loadCum (c : Nat) : OraM (Blink.loadCum c) := .loadWord _
macro_rules | `(tactic| oram1) => `(tactic| exact OraM.loadCursor _)
macro_rules | `(tactic| oram1) => `(tactic| exact OraM.loadEnd _)
macro_rules | `(tactic| oram1) => `(tactic| exact OraM.loadPrev _)
macro_rules | `(tactic| oram1) => `(tactic| exact OraM.loadCum _)

theorem OraM.chunkCap (c : Nat) : OraM (Blink.chunkCap c) := by
  unfold Blink.chunkCap; oram
macro_rules | `(tactic| oram1) => `(tactic| exact OraM.chunkCap _)

theorem OraM.initChunk (sl : Slice) (prev : Nat) : OraM (Blink.initChunk sl prev) := by
  unfold Blink.initChunk; oram
macro_rules | `(tactic| oram1) => `(tactic| exact OraM.initChunk _ _)

theorem OraM.deallocChunk (c : Nat) : OraM (Blink.deallocChunk c) := by
  unfold Blink.deallocChunk; oram
macro_rules | `(tactic| oram1) => `(tactic| exact OraM.deallocChunk _)

theorem OraM.layoutSum (l : Layout) : OraM (Blink.layoutSum l) := by
  unfold Blink.layoutSum; oram
macro_rules | `(tactic| oram1) => `(tactic| exact OraM.layoutSum _)

theorem OraM.tryBump (c e : Nat) (l : Layout) : OraM (Blink.tryBump c e l) := by
  unfold Blink.tryBump; oram
macro_rules | `(tactic| oram1) => `(tactic| exact OraM.tryBump _ _ _)

theorem OraM.cellCasWeak (a o n : Nat) : OraM (Blink.cellCasWeak a o n) := by
  unfold Blink.cellCasWeak; oram
macro_rules | `(tactic| oram1) => `(tactic| exact OraM.cellCasWeak _ _ _)

theorem OraM.cellCas (a o n : Nat) : OraM (Blink.cellCas a o n) := by
  unfold Blink.cellCas; oram
macro_rules | `(tactic| oram1) => `(tactic| exact OraM.cellCas _ _ _)

theorem OraM.chunkAlloc (c : Nat) (l : Layout) : OraM (Blink.chunkAlloc c l) := by
  unfold Blink.chunkAlloc; oram
macro_rules | `(tactic| oram1) => `(tactic| exact OraM.chunkAlloc _ _)

theorem OraM.chunkRealloc (c p : Nat) (o n : Layout) : OraM (Blink.chunkRealloc c p o n) := by
  unfold Blink.chunkRealloc; oram
macro_rules | `(tactic| oram1) => `(tactic| exact OraM.chunkRealloc _ _ _ _)

theorem OraM.chunkResize (c p : Nat) (o n : Layout) : OraM (Blink.chunkResize c p o n) := by
  unfold Blink.chunkResize; oram
macro_rules | `(tactic| oram1) => `(tactic| exact OraM.chunkResize _ _ _ _)

theorem OraM.chunkReset (c : Nat) : OraM (Blink.chunkReset c) := by
  unfold Blink.chunkReset; oram
macro_rules | `(tactic| oram1) => `(tactic| exact OraM.chunkReset _)

theorem OraM.chunkDealloc (c p n : Nat) : OraM (Blink.chunkDealloc c p n) := by
  unfold Blink.chunkDealloc; oram
macro_rules | `(tactic| oram1) => `(tactic| exact OraM.chunkDealloc _ _ _)

theorem OraM.allocChunk (size prev : Nat) : OraM (Blink.allocChunk size prev) := by
  unfold Blink.allocChunk; oram
macro_rules | `(tactic| oram1) => `(tactic| exact OraM.allocChunk _ _)

theorem OraM.allocSlow (root m : Nat) (l : Layout) : OraM (Blink.allocSlow root m l) := by
  unfold Blink.allocSlow; oram
macro_rules | `(tactic| oram1) => `(tactic| exact OraM.allocSlow _ _ _)

theorem OraM.resizeSlow (root m p : Nat) (o n : Layout) : OraM (Blink.resizeSlow root m p o n) := by
  unfold Blink.resizeSlow; oram
macro_rules | `(tactic| oram1) => `(tactic| exact OraM.resizeSlow _ _ _ _ _)

theorem OraM.arenaDealloc (root p n : Nat) : OraM (Blink.arenaDealloc root p n) := by
  unfold Blink.arenaDealloc; oram
macro_rules | `(tactic| oram1) => `(tactic| exact OraM.arenaDealloc _ _ _)

theorem OraM.arenaResetLeak (root : Nat) (k : Bool) : OraM (Blink.arenaResetLeak root k) := by
  unfold Blink.arenaResetLeak; oram
macro_rules | `(tactic| oram1) => `(tactic| exact OraM.arenaResetLeak _ _)

theorem OraM.heldCount : OraM Blink.heldCount := .quiet fun he => by cases he; exact ⟨rfl, rfl, fun _ => rfl⟩
macro_rules | `(tactic| oram1) => `(tactic| exact OraM.heldCount)

theorem OraM.freeChain (n : Nat) : ∀ p, OraM (Blink.freeChain n p) := by
  induction n with
  | zero =>
    intro p
    cases p with
    | zero => exact .pure _
    | succ p => exact .ub _
  | succ n ih =>
    intro p
    cases p with
    | zero => exact .pure _
    | succ p => exact .bind (.deallocChunk _) fun _ => ih _
macro_rules | `(tactic| oram1) => `(tactic| exact OraM.freeChain _ _)

theorem OraM.arenaReset (root : Nat) (k : Bool) : OraM (Blink.arenaReset root k) := by
  unfold Blink.arenaReset; oram
macro_rules | `(tactic| oram1) => `(tactic| exact OraM.arenaReset _ _)

/-! ### `BlinkAlloc` -/

theorem OraM.lastChunkSize (a : BA) : OraM a.lastChunkSize := by
  unfold BA.lastChunkSize; oram
theorem OraM.allocFast (a : BA) (l : Layout) : OraM (a.allocFast l) := by
  unfold BA.allocFast; oram
theorem OraM.resizeFast (a : BA) (p : Nat) (o n : Layout) : OraM (a.resizeFast p o n) := by
  unfold BA.resizeFast; oram
macro_rules | `(tactic| oram1) => `(tactic| exact OraM.lastChunkSize _)
macro_rules | `(tactic| oram1) => `(tactic| exact OraM.allocFast _ _)
macro_rules | `(tactic| oram1) => `(tactic| exact OraM.resizeFast _ _ _ _)

theorem OraM.allocate (a : BA) (l : Layout) : OraM (a.allocate l) := by
  unfold BA.allocate; oram
macro_rules | `(tactic| oram1) => `(tactic| exact OraM.allocate _ _)

theorem OraM.resize (a : BA) (p : Nat) (o n : Layout) : OraM (a.resize p o n) := by
  unfold BA.resize; oram
theorem OraM.deallocate (a : BA) (p n : Nat) : OraM (a.deallocate p n) := by
  unfold BA.deallocate; oram
theorem OraM.reset (a : BA) : OraM a.reset := by
  unfold BA.reset; oram
theorem OraM.resetFinal (a : BA) : OraM a.resetFinal := by
  unfold BA.resetFinal; oram
theorem OraM.allocateZeroed (a : BA) (l : Layout) : OraM (a.allocateZeroed l) := by
  unfold BA.allocateZeroed; oram
macro_rules | `(tactic| oram1) => `(tactic| exact OraM.allocateZeroed _ _)
macro_rules | `(tactic| oram1) => `(tactic| exact OraM.deallocate _ _ _)
theorem OraM.growZeroed (a : BA) (p : Nat) (o n : Layout) : OraM (a.growZeroed p o n) := by
  unfold BA.growZeroed; oram

/-! ### Steps -/

/-- What happens depends only on the answers asked for. `P` gives the world of an outcome, `φ` puts other answers into it. -/
def OraE {α : Type} (w : World) (o : Nat → Option Slice) (P : α → World → Prop) (φ : α → α) (A B : Except Fault α) : Prop :=
  ∀ z, A = .ok z → ∃ w', P z w' ∧ w'.oracle = w.oracle ∧ w.calls ≤ w'.calls ∧ (Agree w w'.calls o → B = .ok (φ z))

theorem OraE.pure {α : Type} {w : World} {o} {P : α → World → Prop} {φ : α → α} {z z' : α} (h : P z w) (he : z' = φ z) :
    OraE w o P φ (Pure.pure z) (Pure.pure z') := by
  intro z1 h1
  cases h1
  exact ⟨w, h, rfl, Nat.le_refl _, fun _ => by rw [he]; rfl⟩

theorem OraE.error {α : Type} {w : World} {o} {P : α → World → Prop} {φ : α → α} {e : Fault} {B : Except Fault α} :
    OraE w o P φ (.error e) B := fun _ h => nomatch h

theorem OraE.bind {α β : Type} {w : World} {o} {P : α → World → Prop} {φ : α → α} {P2 : β → World → Prop} {φ2 : β → β} {A B : Except Fault α}
    {k k' : α → Except Fault β} (h : OraE w o P φ A B) (hk : ∀ z w', P z w' → OraE w' o P2 φ2 (k z) (k' (φ z))) :
    OraE w o P2 φ2 (A >>= k) (B >>= k') := by
  intro y hy
  obtain ⟨z, hz, hy⟩ := ebind_split hy
  obtain ⟨w1, p1, o1, c1, k1⟩ := h z hz
  obtain ⟨w2, p2, o2, c2, k2⟩ := hk z w1 p1 y hy
  refine ⟨w2, p2, o2.trans o1, Nat.le_trans c1 c2, fun ha => ?_⟩
  rw [ebind_ok' (k1 (ha.weaken rfl c2))]
  exact k2 (ha.weaken o1.symm (Nat.le_refl _))

theorem OraM.andThen {α β : Type} {x : M α} (hx : OraM x) {w : World} {o} {P2 : β → World → Prop} {φ2 : β → β}
    {k k' : α × World → Except Fault β} (hk : ∀ a w', OraE w' o P2 φ2 (k (a, w')) (k' (a, w'.ora o))) :
    OraE w o P2 φ2 (x w >>= k) (x (w.ora o) >>= k') := by
  refine OraE.bind (P := fun z w' => w' = z.2) (φ := fun z => (z.1, z.2.ora o)) ?_ ?_
  · rintro ⟨a, w1⟩ hz
    obtain ⟨h1, h2, h3⟩ := hx.rel hz
    exact ⟨w1, rfl, h1, h2, h3 o⟩
  · rintro ⟨a, w1⟩ w' rfl
    exact hk a _

/-- The same state with other answers of the underlying allocator. -/
def St.ora (s : St) (o : Nat → Option Slice) : St := ⟨s.w.ora o, s.a⟩
/-- The same state with other answers of the underlying allocator. -/
def SS.ora (s : SS) (o : Nat → Option Slice) : SS := { s with w := s.w.ora o }
/-- The same state with other answers of the underlying allocator. -/
def PS.ora (ps : PS) (o : Nat → Option Slice) : PS := { ps with s := ps.s.ora o }
/-- The same state with other answers of the underlying allocator. -/
def GSS.ora (g : GSS) (o : Nat → Option Slice) : GSS := { g with s := g.s.ora o }
/-- The same state with other answers of the underlying allocator. -/
def GPS.ora (x : GPS) (o : Nat → Option Slice) : GPS := { x with g := x.g.ora o }

theorem step_ora {s : St} {o} (op : Op) :
    OraE s.w o (fun z w' => w' = z.2.w) (fun z => (z.1, z.2.ora o)) (step s op) (step (s.ora o) op) := by
  cases op with
  | allocate l => exact (OraM.allocate s.a l).andThen fun _ _ => .pure rfl rfl
  | allocateZeroed l => exact (OraM.allocateZeroed s.a l).andThen fun _ _ => .pure rfl rfl
  | resize p old new => exact (OraM.resize s.a p old new).andThen fun _ _ => .pure rfl rfl
  | growZeroed p old new => exact (OraM.growZeroed s.a p old new).andThen fun _ _ => .pure rfl rfl
  | deallocate p n => exact (OraM.deallocate s.a p n).andThen fun _ _ => .pure rfl rfl
  | reset => exact (OraM.reset s.a).andThen fun _ _ => .pure rfl rfl
  | resetFinal => exact (OraM.resetFinal s.a).andThen fun _ _ => .pure rfl rfl
  | write x b => 
    intro z hz; cases hz
    exact ⟨_, rfl, rfl, Nat.le_refl _, fun _ => rfl⟩

theorem OraM.loadRelaxed (c : Nat) (seen : List Nat) (ch : Choice) : OraM (Blink.loadRelaxed c seen ch) := by
  unfold Blink.loadRelaxed; oram
macro_rules | `(tactic| oram1) => `(tactic| exact OraM.loadRelaxed _ _ _)

theorem OraM.gotBlock (wr : Bool) (j : Job) (sl : Slice) : OraM (Blink.gotBlock wr j sl) := by
  unfold Blink.gotBlock; oram
macro_rules | `(tactic| oram1) => `(tactic| exact OraM.gotBlock _ _ _)

/-- The world of a possible outcome. -/
def outW {ρ σ : Type} (W : σ → World) (z : Option (ρ × σ)) (w' : World) : Prop := ∀ p, z = some p → w' = W p.2

/-- Put other answers into an outcome. -/
def outO {ρ σ : Type} (φ : σ → σ) (z : Option (ρ × σ)) : Option (ρ × σ) := z.map fun p => (p.1, φ p.2)

theorem outW.none {ρ σ : Type} {W : σ → World} {w : World} : outW (ρ := ρ) W none w := fun _ h => nomatch h
theorem outW.some {ρ σ : Type} {W : σ → World} {r : ρ} {s : σ} : outW W (some (r, s)) (W s) := fun _ h => by cases h; rfl

/-- The answers asked for by a step of threads determine it. -/
abbrev OraS (w : World) (o : Nat → Option Slice) (A B : Except Fault (Option (Option Resp × SS))) : Prop :=
  OraE w o (outW SS.w) (outO fun s => s.ora o) A B

theorem goStep_ora {s : SS} {o} (t : Nat) (ch : Choice) : OraS s.w o (goStep s t ch) (goStep (s.ora o) t ch) := by
  show OraS s.w o (goStep s t ch) (goStep { s with w := s.w.ora o } t ch)
  unfold goStep
  dsimp only
  split
  · exact .pure .none rfl
  · split
    · exact .pure .some rfl
    · exact .pure .none rfl
  · exact (OraM.loadRelaxed _ _ _).andThen fun _ _ => .pure .some rfl
  · refine (OraM.loadEnd _).andThen fun _ _ => (OraM.tryBump _ _ _).andThen fun b _ => ?_
    cases b with
    | none => exact .pure .some rfl
    | some b =>
      refine (OraM.loadCursor _).andThen fun _ _ => ?_
      dsimp only
      split
      · refine (OraM.storeWord _ _).andThen fun _ _ => (OraM.subU _ _).andThen fun _ _ =>
          (OraM.dassert _ _).andThen fun _ _ => (OraM.dassert _ _).andThen fun _ _ =>
          (OraM.gotBlock _ _ _).andThen fun _ _ => .pure .some rfl
      · exact (OraM.loadRelaxed _ _ _).andThen fun _ _ => .pure .some rfl
  · refine (OraM.addU _ _).andThen fun _ _ => (OraM.loadRelaxed _ _ _).andThen fun _ _ => ?_
    dsimp only
    split <;> exact .pure .some rfl
  · split
    · exact .pure .some rfl
    · refine (OraM.loadEnd _).andThen fun _ _ => ?_
      dsimp only
      split
      · exact .pure .some rfl
      · refine (OraM.cellCas _ _ _).andThen fun ok _ => ?_
        cases ok with
        | true => exact (OraM.subU _ _).andThen fun _ _ => (OraM.dassert _ _).andThen fun _ _ => .pure .some rfl
        | false => exact .pure .some rfl
  · exact (OraM.addU _ _).andThen fun _ _ => (OraM.cellCas _ _ _).andThen fun ok _ => .pure .some rfl
  · exact .pure .some rfl
  · split
    · exact .pure .some rfl
    · exact .pure .none rfl
  · refine (OraM.allocSlow _ _ _).andThen fun ⟨r, root⟩ _ => ?_
    cases r with
    | none => exact .pure .some rfl
    | some b => exact (OraM.gotBlock _ _ _).andThen fun _ _ => .pure .some rfl
  · split
    · exact (OraM.copyByte _ _).andThen fun _ _ => .pure .some rfl
    · exact .pure .some rfl
  · split <;> exact .pure .some rfl

theorem sstep_ora {s : SS} {o} (a : Act) : OraS s.w o (sstep s a) (sstep (s.ora o) a) := by
  have hr : ∀ k, OraS s.w o (resetStep s k) (resetStep (s.ora o) k) := by
    intro k
    exact (OraM.arenaReset _ _).andThen fun _ _ => .pure .some rfl
  have hr : ∀ k, OraS s.w o (resetStep s k) (resetStep { s with w := s.w.ora o } k) := hr
  show OraS s.w o (sstep s a) (sstep { s with w := s.w.ora o } a)
  cases a with
  | call t c =>
    simp only [sstep]
    split
    · exact .pure .some rfl
    · exact .pure .none rfl
  | go t ch => exact goStep_ora t ch
  | write x b =>
    intro z hz; cases hz
    exact ⟨_, .some, rfl, Nat.le_refl _, fun _ => rfl⟩
  | reset => exact hr true
  | resetUnchecked =>
    simp only [sstep]
    split
    · exact hr true
    · exact .pure .none rfl
  | resetFinal => exact hr false

/-! ### Proxies -/

theorem OraM.chunkRequest (root m : Nat) (l : Layout) : OraM (Blink.chunkRequest root m l) := by
  unfold Blink.chunkRequest; oram

theorem OraM.markUninit (sl : Slice) : OraM (Blink.markUninit sl) :=
  .quiet fun he => by cases he; exact ⟨rfl, rfl, fun _ => rfl⟩
macro_rules | `(tactic| oram1) => `(tactic| exact OraM.markUninit _)

theorem OraM.newChunkAlloc (root : Nat) (sl : Slice) (l : Layout) : OraM (Blink.newChunkAlloc root sl l) := by
  unfold Blink.newChunkAlloc; oram

/-- The answers asked for by a step of the system with proxies determine it. -/
abbrev OraP (w : World) (o : Nat → Option Slice) (A B : PRes) : Prop :=
  OraE w o (outW fun ps => ps.s.w) (outO fun ps => ps.ora o) A B

theorem PS.answer_ora {ps : PS} {u1 u2 w : World} {o} (i : Nat) (a : BA) (r : Resp) :
    OraP w o (PS.answer { ps with s := { ps.s with w := u1 } } i a w r) (PS.answer { ps with s := { ps.s with w := u2 } } i a (w.ora o) r) := by
  unfold PS.answer; exact .pure .some rfl

theorem PS.ask_ora {ps : PS} {u1 u2 w : World} {o} (i : Nat) (a : BA) (c : Call) (pc : PPc) :
    OraP w o (PS.ask { ps with s := { ps.s with w := u1 } } i a w c pc) (PS.ask { ps with s := { ps.s with w := u2 } } i a (w.ora o) c pc) := by
  unfold PS.ask
  dsimp only
  split
  · exact .pure .some rfl
  · exact .pure .none rfl

theorem PS.freeNext_ora {ps : PS} {u1 u2 w : World} {o} (i : Nat) (a : BA) (c : Nat) :
    OraP w o (PS.freeNext { ps with s := { ps.s with w := u1 } } i a c w) (PS.freeNext { ps with s := { ps.s with w := u2 } } i a c (w.ora o)) := by
  unfold PS.freeNext
  split
  · exact PS.answer_ora _ _ _
  · exact (OraM.loadPrev _).andThen fun _ _ => (OraM.loadEnd _).andThen fun _ _ => (OraM.subU _ _).andThen fun _ _ => PS.ask_ora _ _ _ _

theorem PS.resume_ora {ps : PS} {o} (i : Nat) (a : BA) (r : Resp) (pc : PPc) :
    OraP ps.s.w o (ps.resume i a r pc) ((ps.ora o).resume i a r pc) := by
  cases pc with
  | idle => exact .pure .none rfl
  | alloc l =>
    cases r with
    | block sl => exact (OraM.newChunkAlloc _ _ _).andThen fun _ _ => PS.answer_ora _ _ _
    | err => exact PS.answer_ora _ _ _
    | unit => exact PS.answer_ora _ _ _
  | resize p old new =>
    cases r with
    | block sl =>
      exact (OraM.newChunkAlloc _ _ _).andThen fun _ _ => (OraM.copyNonoverlapping _ _ _).andThen fun _ _ => PS.answer_ora _ _ _
    | err => exact PS.answer_ora _ _ _
    | unit => exact PS.answer_ora _ _ _
  | chain next => exact PS.freeNext_ora _ _ _

theorem shared_ora {ps : PS} {o} (a : Act) {k k' : Option (Option Resp × SS) → PRes}
    (hk : k = fun x => match x with | none => pure none | some (r, s') => pure (some (r, { ps with s := s' })))
    (hk' : k' = fun x => match x with | none => pure none | some (r, s') => pure (some (r, { ps with s := s' }))) :
    OraP ps.s.w o (sstep ps.s a >>= k) (sstep (ps.s.ora o) a >>= k') := by
  subst hk hk'
  refine (sstep_ora a).bind fun z w' hz => ?_
  cases z with
  | none => exact .pure .none rfl
  | some q =>
    obtain ⟨r, s1⟩ := q
    cases hz _ rfl
    exact .pure .some rfl

theorem pstep_ora {ps : PS} {o} (a : PAct) : OraP ps.s.w o (pstep ps a) (pstep (ps.ora o) a) := by
  show OraP ps.s.w o (pstep ps a) (pstep { ps with s := { ps.s with w := ps.s.w.ora o } } a)
  cases a with
  | shared a =>
    cases a with
    | go t ch =>
      refine (sstep_ora (.go t ch)).bind fun z w' hz => ?_
      cases z with
      | none => exact .pure .none rfl
      | some q =>
        obtain ⟨r, s1⟩ := q
        cases hz _ rfl
        cases r with
        | none => exact .pure .some rfl
        | some r =>
          dsimp only [outO, Option.map, PS.ora]
          cases hpx : ps.px t with
          | none => exact .pure .some rfl
          | some p =>
            dsimp only
            by_cases hi : p.pc = .idle
            · rw [if_pos hi, if_pos hi]; exact .pure .some rfl
            · rw [if_neg hi, if_neg hi]
              exact PS.resume_ora (ps := { ps with s := s1 }) t p.a r p.pc
    | call t c => exact shared_ora _ rfl rfl
    | write x b => exact shared_ora _ rfl rfl
    | reset => exact shared_ora _ rfl rfl
    | resetUnchecked => exact shared_ora _ rfl rfl
    | resetFinal => exact shared_ora _ rfl rfl
  | spawn i k =>
    simp only [pstep]
    split
    · exact .pure .none rfl
    · split
      · exact .pure .some rfl
      · exact .pure .none rfl
  | allocate i l =>
    simp only [pstep]
    split
    · refine (OraM.allocFast _ _).andThen fun r _ => ?_
      cases r with
      | some b => exact PS.answer_ora _ _ _
      | none =>
        refine (OraM.chunkRequest _ _ _).andThen fun q _ => ?_
        cases q with
        | none => exact PS.answer_ora _ _ _
        | some size => exact PS.ask_ora _ _ _ _
    · exact .pure .none rfl
  | resize i p old new =>
    simp only [pstep]
    split
    · refine (OraM.resizeFast _ _ _ _).andThen fun r _ => ?_
      cases r with
      | some b => exact PS.answer_ora _ _ _
      | none =>
        refine (OraM.chunkRequest _ _ _).andThen fun q _ => ?_
        cases q with
        | none => exact PS.answer_ora _ _ _
        | some size => exact PS.ask_ora _ _ _ _
    · exact .pure .none rfl
  | deallocate i p n =>
    simp only [pstep]
    split
    · exact (OraM.deallocate _ _ _).andThen fun _ _ => PS.answer_ora _ _ _
    · exact .pure .none rfl
  | reset i =>
    simp only [pstep]
    split
    · exact (OraM.lastChunkSize _).andThen fun _ _ => (OraM.arenaResetLeak _ _).andThen fun _ _ => .pure .some rfl
    · exact .pure .none rfl
  | resetUnchecked i =>
    simp only [pstep]
    split
    · split
      · exact PS.answer_ora _ _ _
      · exact (OraM.chunkReset _).andThen fun _ _ => PS.freeNext_ora _ _ _
    · exact .pure .none rfl
  | drop i =>
    simp only [pstep]
    split
    · exact (OraM.lastChunkSize _).andThen fun _ _ => (OraM.arenaResetLeak _ _).andThen fun _ _ =>
        (OraM.dassert _ _).andThen fun _ _ => .pure .some rfl
    · exact .pure .none rfl
  | updateMax t x => exact .pure .some rfl
  | sync t u => exact .pure .some rfl

/-! ### Global allocators -/

theorem OraM.baseAllocZeroed (l : Layout) : OraM (Blink.baseAllocZeroed l) := by
  unfold Blink.baseAllocZeroed; oram
macro_rules | `(tactic| oram1) => `(tactic| exact OraM.baseAllocZeroed _)

theorem OraM.baseFor (c : GCall) : OraM (Blink.baseFor c) := by
  cases c <;> (unfold Blink.baseFor; oram)

/-- The answers asked for by a step of a global allocator determine it. -/
abbrev OraG (w : World) (o : Nat → Option Slice) (A B : Except Fault (Option (Option GResp × GSS))) : Prop :=
  OraE w o (outW fun g => g.s.w) (outO fun g => g.ora o) A B

theorem GSS.enter_ora {g : GSS} {o} (t : Nat) (c : GCall) (i : Call) : OraG g.s.w o (g.enter t c i) ((g.ora o).enter t c i) := by
  refine (sstep_ora (.call t i)).bind fun z w' hz => ?_
  cases z with
  | none => exact .pure .none rfl
  | some q =>
    cases hz _ rfl
    exact .pure .some rfl

theorem GSS.begin_ora {g : GSS} {o} (t : Nat) (c : GCall) : OraG g.s.w o (g.begin t c) ((g.ora o).begin t c) := by
  have he := @GSS.enter_ora g o t c
  have hd : ∀ pc, OraG g.s.w o (pure (some (none, g.setPc t pc))) (pure (some (none, (g.ora o).setPc t pc))) := fun pc => .pure .some rfl
  cases c with
  | alloc l =>
    show OraG g.s.w o (if g.enabled then _ else _) (if g.enabled then _ else _)
    cases g.enabled
    · exact hd _
    · exact he _
  | allocZeroed l =>
    show OraG g.s.w o (if g.enabled then _ else _) (if g.enabled then _ else _)
    cases g.enabled
    · exact hd _
    · exact he _
  | dealloc p l =>
    show OraG g.s.w o (if p = 0 then _ else if g.enabled then _ else _) (if p = 0 then _ else if g.enabled then _ else _)
    by_cases hp : p = 0
    · rw [if_pos hp]; exact .error
    · rw [if_neg hp, if_neg hp]
      cases g.enabled
      · exact hd _
      · exact he _
  | realloc p l n =>
    show OraG g.s.w o (match layoutFrom n l.align with | none => _ | some new => if g.enabled then _ else _)
      (match layoutFrom n l.align with | none => _ | some new => if g.enabled then _ else _)
    cases layoutFrom n l.align with
    | none => exact hd _
    | some new =>
      dsimp only
      cases g.enabled
      · exact hd _
      · exact he _

theorem GSS.bypass_ora {g : GSS} {o} (c : GCall) :
    OraE g.s.w o (fun z w' => w' = z.2.s.w) (fun z => (z.1, z.2.ora o)) (g.bypass (baseFor c)) ((g.ora o).bypass (baseFor c)) := by
  intro z hz
  unfold GSS.bypass at hz
  obtain ⟨⟨r, w1⟩, h1, hz⟩ := ebind_split hz
  cases hz
  obtain ⟨o1, c1, k1⟩ := (OraM.baseFor c).rel h1
  refine ⟨_, rfl, o1, c1, fun ha => ?_⟩
  have h2 : baseFor c { (g.ora o).s.w with log := (g.ora o).dlog } = .ok (r, w1.ora o) := k1 o ha
  unfold GSS.bypass
  rw [ebind_ok' h2]
  rfl

theorem ggo_ora {g : GSS} {o} (t : Nat) (ch : Choice) : OraG g.s.w o (ggo g t ch) (ggo (g.ora o) t ch) := by
  unfold ggo
  show OraG g.s.w o _ (match g.pcs t with | .idle => _ | .blink c => _ | .direct c => _ | .zero l b k => _ | .fin c r => _)
  cases g.pcs t with
  | idle => exact .pure .none rfl
  | blink c =>
    refine (goStep_ora t ch).bind fun z w' hz => ?_
    cases z with
    | none => exact .pure .none rfl
    | some q =>
      obtain ⟨r, s1⟩ := q
      cases hz _ rfl
      cases r with
      | none => exact .pure .some rfl
      | some r => cases c <;> cases r <;> exact .pure .some rfl
  | direct c =>
    refine (GSS.bypass_ora c).bind fun z w' hz => ?_
    subst hz
    exact .pure .some rfl
  | zero l b k =>
    dsimp only
    by_cases hk : k < b.len
    · rw [if_pos hk, if_pos hk]
      show OraG g.s.w o (if g.s.w.accessible (b.addr + k) 1 = true then _ else _) (if g.s.w.accessible (b.addr + k) 1 = true then _ else _)
      by_cases ha : g.s.w.accessible (b.addr + k) 1 = true
      · rw [if_pos ha, if_pos ha]
        refine (sstep_ora (.write (b.addr + k) (.raw 0))).bind fun z w' hz => ?_
        cases z with
        | none => exact .pure .none rfl
        | some q =>
          cases hz _ rfl
          exact .pure .some rfl
      · rw [if_neg ha]; exact .error
    · rw [if_neg hk, if_neg hk]; exact .pure .some rfl
  | fin c r => exact .pure .some rfl

theorem GSS.reset_ora {g : GSS} {o} : OraG g.s.w o g.reset (g.ora o).reset := by
  unfold GSS.reset
  show OraG g.s.w o (if g.s.w.debug = true ∧ g.allocations ≠ 0 then _ else _) (if g.s.w.debug = true ∧ g.allocations ≠ 0 then _ else _)
  by_cases hd : g.s.w.debug = true ∧ g.allocations ≠ 0
  · rw [if_pos hd, if_pos hd]; exact .pure .some rfl
  · rw [if_neg hd, if_neg hd]
    refine (sstep_ora .resetUnchecked).bind fun z w' hz => ?_
    cases z with
    | none => exact .pure .none rfl
    | some q =>
      cases hz _ rfl
      exact .pure .some rfl

theorem gsstep_ora {g : GSS} {o} (a : GAct) : OraG g.s.w o (gsstep g a) (gsstep (g.ora o) a) := by
  cases a with
  | call t c =>
    show OraG g.s.w o (if g.pcs t = .idle then _ else _) (if g.pcs t = .idle then _ else _)
    by_cases hp : g.pcs t = .idle
    · rw [if_pos hp, if_pos hp]; exact GSS.begin_ora t c
    · rw [if_neg hp, if_neg hp]; exact .pure .none rfl
  | go t ch => exact ggo_ora t ch
  | write x b =>
    refine (sstep_ora (.write x b)).bind fun z w' hz => ?_
    cases z with
    | none => exact .pure .none rfl
    | some q =>
      cases hz _ rfl
      exact .pure .some rfl
  | reset => exact GSS.reset_ora
  | blinkMode => exact .pure .some rfl
  | directMode =>
    refine GSS.reset_ora.bind fun z w' hz => ?_
    cases z with
    | none => exact .pure .none rfl
    | some q =>
      cases hz _ rfl
      obtain ⟨r, g1⟩ := q
      cases r with
      | none => exact .pure .some rfl
      | some r => cases r <;> exact .pure .some rfl

theorem gpstep_ora {x : GPS} {o} (a : GPAct) :
    OraE x.g.s.w o (outW fun x => x.g.s.w) (outO fun x => x.ora o) (gpstep x a) (gpstep (x.ora o) a) := by
  have hp : ∀ a, OraE x.g.s.w o (outW fun x => x.g.s.w) (outO fun x => x.ora o)
      (pstep x.ps a >>= fun z => match z with | none => pure none | some (r, p) => pure (some (r.map GPResp.proxy, x.withPS p)))
      (pstep (x.ps.ora o) a >>= fun z => match z with | none => pure none | some (r, p) => pure (some (r.map GPResp.proxy, (x.ora o).withPS p))) := by
    intro a
    refine (pstep_ora a).bind fun z w' hz => ?_
    cases z with
    | none => exact .pure .none rfl
    | some q =>
      cases hz _ rfl
      exact .pure .some rfl
  cases a with
  | glob a =>
    refine (gsstep_ora a).bind fun z w' hz => ?_
    cases z with
    | none => exact .pure .none rfl
    | some q =>
      cases hz _ rfl
      exact .pure .some rfl
  | proxy a =>
    cases a with
    | shared a =>
      cases a with
      | go t ch =>
        show OraE x.g.s.w o _ _ (if x.g.pcs t = .idle then _ else _) (if x.g.pcs t = .idle then _ else _)
        by_cases hi : x.g.pcs t = .idle
        · rw [if_pos hi, if_pos hi]; exact hp _
        · rw [if_neg hi, if_neg hi]; exact .pure .none rfl
      | _ => exact hp _
    | _ => exact hp _

end Blink
