import Verif.Model.Local
/-
  The model is parametric in the past of the underlying allocator: two worlds that agree on memory, held blocks and the
  future answers behave the same, whatever requests were made before.
-/
namespace Blink

/-- `w` and `w'` agree on everything that matters from now on; the logs are `lg` and `lg'` extended by the same events. -/
structure Sim (lg lg' : List BaseEvent) (w w' : World) : Prop where
  mem : w'.mem = w.mem
  held : w'.held = w.held
  top : w'.top = w.top
  debug : w'.debug = w.debug
  oracle : ∀ n, w'.oracle (w'.calls + n) = w.oracle (w.calls + n)
  log : ∃ new, w.log = new ++ lg ∧ w'.log = new ++ lg'

/-- Results agree. -/
inductive ResSim (lg lg' : List BaseEvent) {α : Type} : Except Fault (α × World) → Except Fault (α × World) → Prop
  | ok {a w w'} (h : Sim lg lg' w w') : ResSim lg lg' (.ok (a, w)) (.ok (a, w'))
  | err {e} : ResSim lg lg' (.error e) (.error e)

/-- `x` does not depend on the past. -/
structure Par {α : Type} (x : M α) : Prop where
  run : ∀ {lg lg' w w'}, Sim lg lg' w w' → ResSim lg lg' (x w) (x w')

theorem Par.pure {α} (a : α) : Par (Pure.pure a : M α) := ⟨fun h => .ok h⟩

theorem Par.bind {α β} {x : M α} {f : α → M β} (hx : Par x) (hf : ∀ a, Par (f a)) : Par (x >>= f) := by
  constructor
  intro lg lg' w w' h
  show ResSim lg lg' (M.bind x f w) (M.bind x f w')
  unfold M.bind
  have h' := hx.run h
  generalize x w = r1 at *
  generalize x w' = r2 at *
  cases h' with
  | ok h' => exact (hf _).run h'
  | err => exact .err

theorem Par.ub {α} (s : String) : Par (Blink.ub s : M α) := ⟨fun _ => .err⟩

theorem Par.require (p : Prop) [Decidable p] (s : String) : Par (Blink.require p s) := by
  constructor
  intro lg lg' w w' h
  unfold Blink.require
  split
  · exact .ok h
  · exact .err

theorem Par.dassert (p : Prop) [Decidable p] (s : String) : Par (Blink.dassert p s) := by
  constructor
  intro lg lg' w w' h
  unfold Blink.dassert
  rw [h.debug]
  split
  · exact .err
  · exact .ok h

theorem Par.addU (a b : Nat) : Par (Blink.addU a b) := by
  constructor
  intro lg lg' w w' h
  unfold Blink.addU
  split
  · exact .ok h
  · exact .err

theorem Par.subU (a b : Nat) : Par (Blink.subU a b) := by
  constructor
  intro lg lg' w w' h
  unfold Blink.subU
  split
  · exact .ok h
  · exact .err

theorem Sim.acc {lg lg' w w'} (h : Sim lg lg' w w') (a n : Nat) : w'.accessible a n = w.accessible a n := by
  unfold World.accessible; rw [h.held]

theorem Par.loadWord (a : Nat) : Par (Blink.loadWord a) := by
  constructor
  intro lg lg' w w' h
  unfold Blink.loadWord
  rw [h.acc, h.mem]
  split
  · split
    · exact .ok h
    · exact .err
  · exact .err

theorem Sim.setMem {lg lg' w w'} (h : Sim lg lg' w w') (m : Nat → Byte) :
    Sim lg lg' { w with mem := m } { w' with mem := m } :=
  ⟨rfl, h.held, h.top, h.debug, h.oracle, h.log⟩

theorem Par.storeWord (a v : Nat) : Par (Blink.storeWord a v) := by
  constructor
  intro lg lg' w w' h
  unfold Blink.storeWord
  rw [h.acc, h.mem]
  split
  · exact .ok (h.setMem _)
  · exact .err

theorem Par.copyNonoverlapping (a b n : Nat) : Par (Blink.copyNonoverlapping a b n) := by
  constructor
  intro lg lg' w w' h
  unfold Blink.copyNonoverlapping
  rw [h.acc, h.acc, h.mem]
  split
  · exact .ok (h.setMem _)
  · exact .err

theorem Par.writeZeros (a n : Nat) : Par (Blink.writeZeros a n) := by
  constructor
  intro lg lg' w w' h
  unfold Blink.writeZeros
  rw [h.acc, h.mem]
  split
  · exact .ok (h.setMem _)
  · exact .err

theorem Par.baseAlloc (l : Layout) : Par (Blink.baseAlloc l) := by
  constructor
  intro lg lg' w w' h
  obtain ⟨new, l1, l2⟩ := h.log
  have ho := h.oracle 0
  have ho' : ∀ n, w'.oracle (w'.calls + 1 + n) = w.oracle (w.calls + 1 + n) := by
    intro n
    have := h.oracle (1 + n)
    rwa [← Nat.add_assoc, ← Nat.add_assoc] at this
  simp only [Nat.add_zero] at ho
  unfold Blink.baseAlloc
  rw [ho]
  cases w.oracle w.calls with
  | none => exact .ok ⟨h.mem, h.held, h.top, h.debug, ho', .refused l :: new, by simp [l1], by simp [l2]⟩
  | some s =>
    have hf : freshOk w' l s = freshOk w l s := by unfold freshOk; rw [h.held, h.top]
    simp only [hf]
    split
    · exact .ok ⟨by simp only [h.mem], by simp only [h.held], h.top, h.debug, ho', .alloc l s :: new, by simp [l1], by simp [l2]⟩
    · exact .err

theorem Par.baseDealloc (a : Nat) (l : Layout) : Par (Blink.baseDealloc a l) := by
  constructor
  intro lg lg' w w' h
  obtain ⟨new, l1, l2⟩ := h.log
  unfold Blink.baseDealloc
  rw [h.held]
  split
  · exact .ok ⟨by simp only [h.mem], rfl, h.top, h.debug, h.oracle, .dealloc a l :: new, by simp [l1], by simp [l2]⟩
  · exact .err

theorem Par.heldCount : Par Blink.heldCount := by
  constructor
  intro lg lg' w w' h
  unfold Blink.heldCount
  rw [h.held]
  exact .ok h

/-- Step through monadic code. -/
macro "par" : tactic => `(tactic| repeat' first
  | exact Par.pure _ | exact Par.ub _ | exact Par.require _ _ | exact Par.dassert _ _ | exact Par.addU _ _ | exact Par.subU _ _
  | exact Par.loadWord _ | exact Par.storeWord _ _ | exact Par.copyNonoverlapping _ _ _ | exact Par.writeZeros _ _
  | exact Par.baseAlloc _ | exact Par.baseDealloc _ _ | exact Par.heldCount | assumption | apply Par.bind | intro _ | split)

theorem Par.chunkCap (c : Nat) : Par (Blink.chunkCap c) := by unfold Blink.chunkCap loadEnd; par
theorem Par.initChunk (s : Slice) (p : Nat) : Par (Blink.initChunk s p) := by
  have := Par.chunkCap p
  unfold Blink.initChunk loadCum; par
theorem Par.allocChunk (s p : Nat) : Par (Blink.allocChunk s p) := by
  have := fun sl => Par.initChunk sl p
  unfold Blink.allocChunk; par
theorem Par.deallocChunk (c : Nat) : Par (Blink.deallocChunk c) := by unfold Blink.deallocChunk loadPrev loadEnd; par
theorem Par.tryBump (c e : Nat) (l : Layout) : Par (Blink.tryBump c e l) := by unfold Blink.tryBump layoutSum; par
theorem Par.cellCasWeak (a o n : Nat) : Par (Blink.cellCasWeak a o n) := by unfold Blink.cellCasWeak; par
theorem Par.cellCas (a o n : Nat) : Par (Blink.cellCas a o n) := by unfold Blink.cellCas; par
theorem Par.chunkAlloc (c : Nat) (l : Layout) : Par (Blink.chunkAlloc c l) := by
  unfold Blink.chunkAlloc loadCursor loadEnd; par
theorem Par.chunkRealloc (c p : Nat) (o n : Layout) : Par (Blink.chunkRealloc c p o n) := by
  have := Par.chunkAlloc c n
  unfold Blink.chunkRealloc; par
theorem Par.chunkResize (c p : Nat) (o n : Layout) : Par (Blink.chunkResize c p o n) := by
  have := Par.chunkRealloc c p o n
  unfold Blink.chunkResize loadCursor loadEnd; par
theorem Par.chunkReset (c : Nat) : Par (Blink.chunkReset c) := by
  have := Par.chunkCap c
  unfold Blink.chunkReset loadEnd loadPrev; par
theorem Par.chunkDealloc (c p n : Nat) : Par (Blink.chunkDealloc c p n) := by
  unfold Blink.chunkDealloc; par
theorem Par.allocSlow (r c : Nat) (l : Layout) : Par (Blink.allocSlow r c l) := by
  unfold Blink.allocSlow loadCum; par
  · exact Par.allocChunk _ _
theorem Par.resizeSlow (r c p : Nat) (o n : Layout) : Par (Blink.resizeSlow r c p o n) := by
  have := Par.allocSlow r c n
  unfold Blink.resizeSlow; par
theorem Par.arenaDealloc (r p n : Nat) : Par (Blink.arenaDealloc r p n) := by
  have := Par.chunkDealloc r p n
  unfold Blink.arenaDealloc; par
theorem Par.freeChain (n c : Nat) : Par (Blink.freeChain n c) := by
  induction n generalizing c with
  | zero => cases c with
    | zero => exact Par.pure ()
    | succ c => exact Par.ub _
  | succ n ih => cases c with
    | zero => exact Par.pure ()
    | succ c => exact Par.bind (Par.deallocChunk _) (fun _ => ih _)
theorem Par.arenaReset (r : Nat) (b : Bool) : Par (Blink.arenaReset r b) := by
  have := Par.chunkReset r
  have := Par.freeChain
  unfold Blink.arenaReset; par
  · exact this _ _
  · exact this _ _

theorem Par.allocate (a : BA) (l : Layout) : Par (a.allocate l) := by
  have := Par.chunkAlloc a.root l
  have := Par.allocSlow a.root a.minChunk l
  unfold BA.allocate BA.allocFast; par
theorem Par.resize (a : BA) (p : Nat) (o n : Layout) : Par (a.resize p o n) := by
  have := Par.chunkResize a.root p o n
  have := Par.resizeSlow a.root a.minChunk p o n
  unfold BA.resize BA.resizeFast; par
theorem Par.deallocate (a : BA) (p n : Nat) : Par (a.deallocate p n) := Par.arenaDealloc _ _ _
theorem Par.reset (a : BA) : Par a.reset := by
  have := Par.arenaReset a.root true
  unfold BA.reset; par
theorem Par.resetFinal (a : BA) : Par a.resetFinal := by
  have := Par.arenaReset a.root false
  unfold BA.resetFinal; par
theorem Par.allocateZeroed (a : BA) (l : Layout) : Par (a.allocateZeroed l) := by
  have := Par.allocate a l
  unfold BA.allocateZeroed; par
theorem Par.growZeroed (a : BA) (p : Nat) (o n : Layout) : Par (a.growZeroed p o n) := by
  have := Par.allocateZeroed a n
  have := fun (a : BA) => Par.deallocate a p o.size
  unfold BA.growZeroed; par
  exact this _

/-- Steps from similar states agree. -/
theorem step_sim {lg lg' : List BaseEvent} {s s' : St} (ha : s'.a = s.a) (h : Sim lg lg' s.w s'.w) (op : Op) :
    (∃ e, step s op = .error e ∧ step s' op = .error e) ∨
    ∃ r t t', step s op = .ok (r, t) ∧ step s' op = .ok (r, t') ∧ t'.a = t.a ∧ Sim lg lg' t.w t'.w := by
  have fin : ∀ {α : Type} {x : M α} {f : α → World → Resp × St}, Par x →
      (∀ a w w', Sim lg lg' w w' → (f a w).1 = (f a w').1 ∧ (f a w').2.a = (f a w).2.a ∧ Sim lg lg' (f a w).2.w (f a w').2.w) →
      (do let (a, w) ← x s.w; Except.ok (f a w)) = step s op → (do let (a, w) ← x s'.w; Except.ok (f a w)) = step s' op →
      (∃ e, step s op = .error e ∧ step s' op = .error e) ∨
      ∃ r t t', step s op = .ok (r, t) ∧ step s' op = .ok (r, t') ∧ t'.a = t.a ∧ Sim lg lg' t.w t'.w := by
    intro α x f hx hf e1 e2
    have h' := hx.run h
    generalize hr1 : x s.w = r1 at *
    generalize hr2 : x s'.w = r2 at *
    cases h' with
    | err => exact .inl ⟨_, e1.symm, e2.symm⟩
    | @ok a w w' hs =>
      obtain ⟨g1, g2, g3⟩ := hf a w w' hs
      refine .inr ⟨(f a w).1, (f a w).2, (f a w').2, e1.symm, ?_, g2, g3⟩
      rw [← e2, g1]
      rfl
  cases op with
  | allocate l =>
    exact fin (f := fun x w => (.ofOption x.1, ⟨w, x.2⟩)) (Par.allocate s.a l) (fun _ _ _ h => ⟨rfl, rfl, h⟩) rfl (by rw [← ha]; rfl)
  | allocateZeroed l =>
    exact fin (f := fun x w => (.ofOption x.1, ⟨w, x.2⟩)) (Par.allocateZeroed s.a l) (fun _ _ _ h => ⟨rfl, rfl, h⟩) rfl
      (by rw [← ha]; rfl)
  | resize p o n =>
    exact fin (f := fun x w => (.ofOption x.1, ⟨w, x.2⟩)) (Par.resize s.a p o n) (fun _ _ _ h => ⟨rfl, rfl, h⟩) rfl
      (by rw [← ha]; rfl)
  | growZeroed p o n =>
    exact fin (f := fun x w => (.ofOption x.1, ⟨w, x.2⟩)) (Par.growZeroed s.a p o n) (fun _ _ _ h => ⟨rfl, rfl, h⟩) rfl
      (by rw [← ha]; rfl)
  | deallocate p n =>
    exact fin (f := fun _ w => (.unit, ⟨w, s.a⟩)) (Par.deallocate s.a p n) (fun _ _ _ h => ⟨rfl, rfl, h⟩) rfl (by rw [← ha]; rfl)
  | reset =>
    exact fin (f := fun a w => (.unit, ⟨w, a⟩)) (Par.reset s.a) (fun _ _ _ h => ⟨rfl, rfl, h⟩) rfl (by rw [← ha]; rfl)
  | resetFinal =>
    exact fin (f := fun a w => (.unit, ⟨w, a⟩)) (Par.resetFinal s.a) (fun _ _ _ h => ⟨rfl, rfl, h⟩) rfl (by rw [← ha]; rfl)
  | write x b =>
    refine .inr ⟨.unit, _, _, rfl, rfl, ha, ?_⟩
    simp only
    rw [h.mem]
    exact h.setMem _

end Blink
