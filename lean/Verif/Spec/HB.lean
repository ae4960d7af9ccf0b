import Verif.Spec.Touch
/-
  Happens-before for the threads using a `SyncBlinkAlloc`, in the sense of the C++/Rust memory model, as far as it does not depend on
  the orderings given to the atomic accesses of the cursor: the only edges are program order, the lock, and whatever
  synchronisation the callers do among themselves. (`Ordering::Acquire` and `Ordering::Release` at src/arena/mod.rs:319, 392, 453
  could add more edges; leaving them out makes the theorems stronger.)

  Each step of the system is an event, numbered in the order of execution. A thread's *view* is the set of events that happen
  before whatever it does next.
-/
namespace Blink

/-- A set of events. -/
abbrev View := Nat → Prop

/-- The events so far, as far as they matter. -/
structure HB where
  /-- Number of the next event. -/
  clock : Nat
  /-- What happens before the next event of each thread. -/
  view : Nat → View
  /-- What happens before each event. -/
  past : Nat → View
  /-- What is released to the next owner of the lock by leaving shared sections: seen only by those who lock exclusively. -/
  lockR : View
  /-- What is released by leaving exclusive sections: seen by everybody who takes the lock. -/
  lockW : View
  /-- Non-atomic reads of a byte. -/
  reads : Nat → View
  /-- Non-atomic writes of a byte. -/
  writes : Nat → View
  /-- Atomic accesses of a byte. -/
  atoms : Nat → View
  /-- Reads of `Inner::root` (src/arena/sync.rs:6). -/
  rootR : View
  /-- Writes of `Inner::root`. -/
  rootW : View
  /-- Those accesses of a byte that were made by callers, to blocks they own. -/
  mine : Nat → View
  /-- The event in which the block that contains this byte was given to its owner. -/
  since : Nat → Nat
  /-- Events in which a call returned. -/
  rets : View
  /-- Creation of the allocator, or its last reset. -/
  epoch : Nat

/-- Just after thread `t0` created the allocator; that was event number 0. -/
def HB.start (t0 : Nat) : HB where
  clock := 1
  view := fun t e => t = t0 ∧ e = 0
  past := fun _ _ => False
  lockR := fun _ => False
  lockW := fun _ => False
  reads := fun _ _ => False
  writes := fun _ _ => False
  atoms := fun _ _ => False
  rootR := fun _ => False
  rootW := fun _ => False
  mine := fun _ _ => False
  since := fun _ => 0
  rets := fun _ => False
  epoch := 0

/-- The step accesses the byte at `x` by an operation of `AtomicPtr`: the loads and exchanges of the cursor at
src/arena/mod.rs:286, 316-321, 376, 388-394 and 450-455. -/
def Atomic (s : SS) : Act → Nat → Prop
  | .go t _, x => match s.pcs t with
    | .load c _ | .cas c _ _ | .rload c _ _ _ | .rcas c _ _ _ _ | .free c _ _ => c ≤ x ∧ x < c + 8
    | _ => False
  | _, _ => False

/-- What the step acquires: `read()` (src/arena/sync.rs:51, 84, 115) synchronises with exclusive sections that are over, `write()`
(src/arena/sync.rs:66, 100) with all sections that are over. -/
def HB.acq (h : HB) (s : SS) : Act → View
  | .go t _, e => match s.pcs t with
    | .rd _ => h.lockW e
    | .wr _ => h.lockW e ∨ h.lockR e
    | _ => False
  | _, _ => False

/-- The step leaves a shared section. -/
def LeavesR (s : SS) : Act → Prop
  | .go t _ => match s.pcs t with
    | .unlockSlow _ | .ret false _ => True
    | _ => False
  | _ => False

/-- The step leaves an exclusive section. -/
def LeavesW (s : SS) : Act → Prop
  | .go t _ => match s.pcs t with
    | .ret true _ => True
    | _ => False
  | _ => False

/-- The step counts as a read of `Inner::root`: it accesses it, or it is any other step inside a section, where a reference to `Inner` is held
(src/arena/sync.rs:51, 66-67, 84, 100-101, 115). -/
def ReadsRoot (s : SS) (a : Act) : Prop := TouchesRoot s a ∨ match a with
  | .go t _ => match s.pcs t with
    | .idle | .rd _ | .wr _ => False
    | _ => True
  | _ => False

/-- The step counts as a write of `Inner::root`: it writes it, or it is any other step inside an exclusive section, where a mutable reference to
`Inner` is held. -/
def StoresRoot (s : SS) (a : Act) : Prop := WritesRoot s a ∨ match a with
  | .go t _ => match s.pcs t with
    | .slow _ | .copy true .. | .ret true _ => True
    | _ => False
  | _ => False

/-- What happens before the event in which thread `t` performs `a`. -/
def HB.before (h : HB) (s : SS) (t : Nat) (a : Act) : View := fun e => h.view t e ∨ h.acq s a e

/-- The memory at `x` was obtained from the underlying allocator in this step. Whatever its former users did happens before
that: this is what allocators guarantee. -/
def NewMem (s s' : SS) (x : Nat) : Prop := s'.w.Holds x ∧ ¬ s.w.Holds x

/-- The step returns a block containing `x` to the caller. -/
def Gives (K : Book) (r : Option Resp) (x : Nat) : Act → Prop
  | .go t _ => ∃ c ob v, K.busy t = some (c, ob) ∧ r = some v ∧ ∃ b ∈ gets c ob v, b.Has x
  | _ => False

/-- The event in which thread `t` performs `a`, with response `r`, leading from `s` to `s'`. -/
structure HB.Step (h : HB) (s : SS) (K : Book) (t : Nat) (a : Act) (r : Option Resp) (s' : SS) (h' : HB) : Prop where
  clock : h'.clock = h.clock + 1
  view : ∀ u e, h'.view u e ↔ (h.view u e ∨ u = t ∧ (h.before s t a e ∨ e = h.clock))
  past : ∀ n e, h'.past n e ↔ if n = h.clock then h.before s t a e else h.past n e
  lockR : ∀ e, h'.lockR e ↔ (h.lockR e ∨ LeavesR s a ∧ (h.before s t a e ∨ e = h.clock))
  lockW : ∀ e, h'.lockW e ↔ (h.lockW e ∨ LeavesW s a ∧ (h.before s t a e ∨ e = h.clock))
  reads : ∀ x e, h'.reads x e ↔ (h.reads x e ∧ ¬ NewMem s s' x ∨ e = h.clock ∧ Touches s a x ∧ ¬ Atomic s a x)
  writes : ∀ x e, h'.writes x e ↔ (h.writes x e ∧ ¬ NewMem s s' x ∨ e = h.clock ∧ Writes s a x ∧ ¬ Atomic s a x)
  atoms : ∀ x e, h'.atoms x e ↔ (h.atoms x e ∧ ¬ NewMem s s' x ∨ e = h.clock ∧ Touches s a x ∧ Atomic s a x)
  rootR : ∀ e, h'.rootR e ↔ (h.rootR e ∨ e = h.clock ∧ ReadsRoot s a)
  rootW : ∀ e, h'.rootW e ↔ (h.rootW e ∨ e = h.clock ∧ StoresRoot s a)
  mine : ∀ x e, h'.mine x e ↔ (h.mine x e ∧ ¬ NewMem s s' x ∨ e = h.clock ∧ ∃ v, a = .write x v)
  since : ∀ x, (Gives K r x a → h'.since x = h.clock) ∧ (¬ Gives K r x a → h'.since x = h.since x)
  rets : ∀ e, h'.rets e ↔ (h.rets e ∨ e = h.clock ∧ r ≠ none)
  epoch : h'.epoch = if a.resets then h.clock else h.epoch

/-- Thread `t` reads the byte at `x` of a block. -/
def HB.read (h : HB) (t x : Nat) : HB :=
  { h with
    clock := h.clock + 1
    view := fun u e => h.view u e ∨ u = t ∧ e = h.clock
    past := fun n e => if n = h.clock then h.view t e else h.past n e
    reads := fun y e => h.reads y e ∨ y = x ∧ e = h.clock
    mine := fun y e => h.mine y e ∨ y = x ∧ e = h.clock }

/-- The callers make everything that happens before the next event of `t` happen before the next event of `u`. -/
def HB.sync (h : HB) (t u : Nat) : HB := { h with view := fun v e => h.view v e ∨ v = u ∧ h.view t e }

/-- Thread `t` may access the byte at `x` of a block somebody owns (`wr`: write it), as far as the callers can know: the return of
the call that gave out the block happens before, and so do all conflicting accesses by callers since. -/
def HB.Owns (h : HB) (t x : Nat) (wr : Bool) : Prop :=
  h.view t (h.since x) ∧ ∀ e, h.since x < e → h.mine x e → (wr = true ∨ h.writes x e) → h.view t e

/-- Who performs an action. -/
def Act.By (t : Nat) : Act → Prop
  | .call u _ => u = t
  | .go u _ => u = t
  | _ => True

/-- What the callers must see to (in Rust the borrow checker, `Send` and `Sync` do): they got hold of the allocator after it was
created or reset, they hand over blocks only when all accesses to them happen before, and resets happen after all calls
returned and after all accesses to blocks. -/
def HB.Duty (h : HB) (K : Book) (t : Nat) : Act → Prop
  | .call _ (.allocate _) => h.view t h.epoch
  | .call _ (.resize p old _) => h.view t h.epoch ∧ ∀ b ∈ K.owned, b.Fits p old → ∀ x, b.Has x → h.Owns t x true
  | .call _ (.deallocate p n) => h.view t h.epoch ∧
      ∀ b ∈ K.owned, (b.addr = p ∧ b.size ≤ n ∧ n ≤ b.len) → ∀ x, b.Has x → h.Owns t x true
  | .write x _ => h.Owns t x true
  | .reset | .resetUnchecked | .resetFinal =>
      h.view t h.epoch ∧ (∀ e, h.rets e → h.view t e) ∧ ∀ x e, h.mine x e → h.view t e
  | .go _ _ => True

/-- Histories of the system together with their happens-before relation. -/
inductive HRun (s0 : SS) (t0 : Nat) : SS → Book → HB → Prop
  | start : HRun s0 t0 s0 Book.empty (HB.start t0)
  | act {s K h t a r s' K' h'} (hr : HRun s0 t0 s K h) (hl : SLegal K a) (hb : a.By t) (hd : h.Duty K t a)
      (hs : sstep s a = .ok (some (r, s'))) (ha : SAfter s.w.mem K a r K') (hh : h.Step s K t a r s' h') : HRun s0 t0 s' K' h'
  | read {s K h t x b} (hr : HRun s0 t0 s K h) (ho : b ∈ K.owned) (hx : b.Has x) (hd : h.Owns t x false) :
      HRun s0 t0 s K (h.read t x)
  | sync {s K h} (hr : HRun s0 t0 s K h) (t u : Nat) : HRun s0 t0 s K (h.sync t u)

/-- `s` is reached from the fresh allocator `s0` created by thread `t0`, with book `K` and happens-before `h`. -/
def HReach (s0 : SS) (t0 : Nat) (s : SS) (K : Book) (h : HB) : Prop := SStart s0 ∧ HRun s0 t0 s K h

end Blink
