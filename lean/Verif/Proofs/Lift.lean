import Verif.Proofs.Resize
import Verif.Proofs.Reset
import Verif.Model.Proxy
/-
  Code that does not call the underlying allocator behaves the same in any world that has the same memory and in which at
  least as much of it is accessible. Used to move results about a stand-alone arena to an arena inside somebody else's memory.
-/
namespace Blink

/-- `x` only looks at memory: a successful run carries over to every world with the same memory and more access. -/
structure Lift {α : Type} (x : M α) : Prop where
  run : ∀ {V w : World} {r : α} {V' : World}, x V = .ok (r, V') → V.mem = w.mem → V.debug = w.debug →
    (∀ a n, V.accessible a n = true → w.accessible a n = true) →
    x w = .ok (r, { w with mem := V'.mem }) ∧ V' = { V with mem := V'.mem }

theorem Lift.pure {α} (a : α) : Lift (Pure.pure a : M α) := by
  constructor
  intro V w r V' h hm hd ha
  injection h with h; injection h with h1 h2
  subst h1; subst h2
  exact ⟨by rw [hm]; rfl, rfl⟩

theorem Lift.bind {α β} {x : M α} {f : α → M β} (hx : Lift x) (hf : ∀ a, Lift (f a)) : Lift (x >>= f) := by
  constructor
  intro V w r V' h hm hd ha
  have h' : M.bind x f V = .ok (r, V') := h
  unfold M.bind at h'
  cases hxV : x V with
  | error e => rw [hxV] at h'; cases h'
  | ok y =>
    obtain ⟨a, V1⟩ := y
    rw [hxV] at h'
    obtain ⟨h1, h2⟩ := hx.run hxV hm hd ha
    obtain ⟨h3, h4⟩ := (hf a).run (w := { w with mem := V1.mem }) h' rfl (by rw [h2]; exact hd) (by rw [h2]; exact ha)
    refine ⟨?_, ?_⟩
    · show M.bind x f w = _
      unfold M.bind
      rw [h1]
      exact h3
    · rw [h4, h2]

theorem Lift.ub {α} (s : String) : Lift (Blink.ub s : M α) := ⟨fun h => by cases h⟩

theorem Lift.ofPure {α} {x : M α} (h : ∀ w, (∃ a, ∀ w', w'.debug = w.debug → x w' = .ok (a, w')) ∨ ∃ e, x w = .error e) : Lift x := by
  constructor
  intro V w r V' hx hm hd _
  rcases h V with ⟨a, ha⟩ | ⟨e, he⟩
  · rw [ha V rfl] at hx
    injection hx with hx; injection hx with h1 h2
    subst h1; subst h2
    rw [ha w hd.symm, hm]
    exact ⟨rfl, by rw [← hm]⟩
  · rw [he] at hx; cases hx

theorem Lift.require (p : Prop) [Decidable p] (s : String) : Lift (Blink.require p s) := by
  apply Lift.ofPure
  intro w
  by_cases hp : p
  · left; exact ⟨(), fun w' _ => by unfold Blink.require; rw [if_pos hp]⟩
  · right; exact ⟨_, by unfold Blink.require; rw [if_neg hp]⟩

theorem Lift.dassert (p : Prop) [Decidable p] (s : String) : Lift (Blink.dassert p s) := by
  apply Lift.ofPure
  intro w
  by_cases hp : w.debug = true ∧ ¬ p
  · right; exact ⟨_, by unfold Blink.dassert; rw [if_pos hp]⟩
  · left; exact ⟨(), fun w' hw => by unfold Blink.dassert; rw [hw, if_neg hp]⟩

theorem Lift.addU (a b : Nat) : Lift (Blink.addU a b) := by
  apply Lift.ofPure
  intro w
  by_cases hp : a + b < USIZE
  · left; exact ⟨_, fun w' _ => by unfold Blink.addU; rw [if_pos hp]⟩
  · right; exact ⟨_, by unfold Blink.addU; rw [if_neg hp]⟩

theorem Lift.subU (a b : Nat) : Lift (Blink.subU a b) := by
  apply Lift.ofPure
  intro w
  by_cases hp : b ≤ a
  · left; exact ⟨_, fun w' _ => by unfold Blink.subU; rw [if_pos hp]⟩
  · right; exact ⟨_, by unfold Blink.subU; rw [if_neg hp]⟩

theorem Lift.loadWord (a : Nat) : Lift (Blink.loadWord a) := by
  constructor
  intro V w r V' h hm hd ha
  unfold Blink.loadWord at *
  split at h
  · rename_i hc
    rw [if_pos ⟨hc.1, ha _ _ hc.2⟩, ← hm]
    split at h
    · rename_i v hv
      injection h with h; injection h with h1 h2
      subst h1; subst h2
      exact ⟨by rw [hm], rfl⟩
    · cases h
  · cases h

theorem Lift.storeWord (a v : Nat) : Lift (Blink.storeWord a v) := by
  constructor
  intro V w r V' h hm hd ha
  unfold Blink.storeWord at *
  split at h
  · rename_i hc
    rw [if_pos ⟨hc.1, ha _ _ hc.2⟩, ← hm]
    injection h with h; injection h with h1 h2
    subst h2
    exact ⟨rfl, rfl⟩
  · cases h

theorem Lift.copyNonoverlapping (a b n : Nat) : Lift (Blink.copyNonoverlapping a b n) := by
  constructor
  intro V w r V' h hm hd ha
  unfold Blink.copyNonoverlapping at *
  split at h
  · rename_i hc
    rw [if_pos (hc.imp id fun h => ⟨ha _ _ h.1, ha _ _ h.2.1, h.2.2⟩), ← hm]
    injection h with h; injection h with h1 h2
    subst h2
    exact ⟨rfl, rfl⟩
  · cases h

theorem Lift.markUninit (sl : Slice) : Lift (Blink.markUninit sl) := by
  constructor
  intro V w r V' h hm hd ha
  unfold Blink.markUninit at *
  injection h with h; injection h with h1 h2
  subst h2
  exact ⟨by simp only [hm], rfl⟩

/-- Step through monadic code. -/
macro "lift" : tactic => `(tactic| repeat' first
  | exact Lift.pure _ | exact Lift.ub _ | exact Lift.require _ _ | exact Lift.dassert _ _ | exact Lift.addU _ _
  | exact Lift.subU _ _ | exact Lift.loadWord _ | exact Lift.storeWord _ _ | exact Lift.copyNonoverlapping _ _ _
  | assumption | apply Lift.bind | intro _ | split)

theorem Lift.chunkCap (c : Nat) : Lift (Blink.chunkCap c) := by unfold Blink.chunkCap loadEnd; lift
theorem Lift.initChunk (s : Slice) (p : Nat) : Lift (Blink.initChunk s p) := by
  have := Lift.chunkCap p
  unfold Blink.initChunk loadCum; lift
theorem Lift.tryBump (c e : Nat) (l : Layout) : Lift (Blink.tryBump c e l) := by unfold Blink.tryBump layoutSum; lift
theorem Lift.cellCasWeak (a o n : Nat) : Lift (Blink.cellCasWeak a o n) := by unfold Blink.cellCasWeak; lift
theorem Lift.cellCas (a o n : Nat) : Lift (Blink.cellCas a o n) := by unfold Blink.cellCas; lift
theorem Lift.chunkAlloc (c : Nat) (l : Layout) : Lift (Blink.chunkAlloc c l) := by
  have := fun a b => Lift.tryBump a b l
  have := fun a b => Lift.cellCasWeak c a b
  unfold Blink.chunkAlloc loadCursor loadEnd; lift
  all_goals first | exact Lift.tryBump _ _ _ | exact Lift.cellCasWeak _ _ _
theorem Lift.chunkRealloc (c p : Nat) (o n : Layout) : Lift (Blink.chunkRealloc c p o n) := by
  have := Lift.chunkAlloc c n
  unfold Blink.chunkRealloc; lift
theorem Lift.chunkResize (c p : Nat) (o n : Layout) : Lift (Blink.chunkResize c p o n) := by
  have := Lift.chunkRealloc c p o n
  unfold Blink.chunkResize loadCursor loadEnd; lift
  all_goals exact Lift.cellCas _ _ _
theorem Lift.chunkReset (c : Nat) : Lift (Blink.chunkReset c) := by
  have := Lift.chunkCap c
  unfold Blink.chunkReset loadEnd loadPrev; lift
theorem Lift.chunkDealloc (c p n : Nat) : Lift (Blink.chunkDealloc c p n) := by
  unfold Blink.chunkDealloc; lift
  all_goals exact Lift.cellCas _ _ _
theorem Lift.allocFast (a : BA) (l : Layout) : Lift (a.allocFast l) := by
  have := Lift.chunkAlloc a.root l
  unfold BA.allocFast; lift
theorem Lift.resizeFast (a : BA) (p : Nat) (o n : Layout) : Lift (a.resizeFast p o n) := by
  have := Lift.chunkResize a.root p o n
  unfold BA.resizeFast; lift
theorem Lift.deallocate (a : BA) (p n : Nat) : Lift (a.deallocate p n) := by
  have := Lift.chunkDealloc a.root p n
  unfold BA.deallocate arenaDealloc; lift
theorem Lift.lastChunkSize (a : BA) : Lift a.lastChunkSize := by
  have := Lift.chunkCap a.root
  unfold BA.lastChunkSize; lift
theorem Lift.arenaResetLeak (r : Nat) (b : Bool) : Lift (Blink.arenaResetLeak r b) := by
  have := Lift.chunkReset r
  unfold Blink.arenaResetLeak; lift
theorem Lift.chunkRequest (r m : Nat) (l : Layout) : Lift (Blink.chunkRequest r m l) := by
  unfold Blink.chunkRequest loadCum; lift
theorem Lift.newChunkAlloc (r : Nat) (s : Slice) (l : Layout) : Lift (Blink.newChunkAlloc r s l) := by
  have := Lift.initChunk s r
  have := fun c => Lift.chunkAlloc c l
  unfold Blink.newChunkAlloc
  refine Lift.bind (Lift.markUninit s) fun _ => ?_
  lift
  all_goals exact Lift.chunkAlloc _ _

/-! ### `alloc_slow` is its two halves with the request to the underlying allocator in between -/

theorem bind_assoc' {α β γ} (x : M α) (f : α → M β) (g : β → M γ) : (x >>= f) >>= g = x >>= fun a => f a >>= g := by
  funext w
  show M.bind (M.bind x f) g w = M.bind x (fun a => M.bind (f a) g) w
  unfold M.bind
  cases x w <;> rfl

theorem pure_bind' {α β} (a : α) (f : α → M β) : (pure a >>= f) = f a := rfl

theorem initChunk_addr {sl : Slice} {root c : Nat} {w w' : World} (h : initChunk sl root w = .ok (c, w')) : c = sl.addr := by
  have key : ∀ {α : Type} {x : M α} {f : α → M Nat} {w w' c}, (x >>= f) w = .ok (c, w') → (∀ a w w' c, f a w = .ok (c, w') → c = sl.addr) →
      c = sl.addr := by
    intro α x f w w' c h hf
    rw [bind_apply] at h
    split at h
    · exact hf _ _ _ _ h
    · cases h
  unfold initChunk at h
  refine key h fun _ _ _ _ h => key h fun _ _ _ _ h => key h fun _ _ _ _ h => key h fun _ _ _ _ h => key h fun _ _ _ _ h =>
    key h fun _ _ _ _ h => key h fun _ _ _ _ h => key h fun _ _ _ _ h => key h fun _ _ _ _ h => ?_
  injection h with h; injection h with h1 h2
  exact h1.symm

/-- The model of `alloc_slow` agrees with the two halves used for proxies, as long as the requested layout is a valid one. -/
theorem allocSlow_split {root m : Nat} {l : Layout} {w w1 : World} {q : Option Nat}
    (h : chunkRequest root m l w = .ok (q, w1)) :
    allocSlow root m l w = match q with
      | none => .ok ((none, root), w1)
      | some R => (do
          match ← baseAlloc ⟨R, HDR_ALIGN⟩ with
          | none => pure (none, root)
          | some sl => do
            let s ← newChunkAlloc root sl l
            pure (some s, sl.addr) : M (Option Slice × Nat)) w1 := by
  unfold chunkRequest at h
  unfold allocSlow
  rw [bind_apply] at h ⊢
  generalize (if root = 0 then pure none else do
      let c ← loadCum root
      pure (some c) : M (Option Nat)) w = x at *
  cases x with
  | error e => cases h
  | ok y =>
    obtain ⟨rc, w2⟩ := y
    simp only at *
    cases hcs : slowChunkSize rc m l with
    | none =>
      rw [hcs] at h
      injection h with h; injection h with h1 h2
      subst h1; subst h2; rfl
    | some S =>
      rw [hcs] at h
      simp only at *
      rw [bind_apply] at h ⊢
      generalize dassert (S % HDR_ALIGN = 0) "chunk_size % align_of::<ChunkHeader>() == 0" w2 = x at *
      cases x with
      | error e => cases h
      | ok y =>
        obtain ⟨_, w3⟩ := y
        simp only at *
        unfold allocChunk
        cases hR : alignUp S HDR_ALIGN with
        | none =>
          rw [hR] at h
          injection h with h; injection h with h1 h2
          subst h1; subst h2; rfl
        | some R =>
          rw [hR] at h
          simp only at *
          by_cases hv : R + HDR_ALIGN ≤ ISIZE
          · rw [bind_ok (require_ok hv)] at h
            injection h with h; injection h with h1 h2
            subst h1; subst h2
            simp only
            rw [bind_apply, bind_apply, bind_apply]
            cases hb : baseAlloc ⟨R, HDR_ALIGN⟩ w3 with
            | error e => rfl
            | ok y =>
              obtain ⟨o, w4⟩ := y
              cases o with
              | none => rfl
              | some sl =>
                have hmark : ({ w4 with mem := setBytes w4.mem sl.addr sl.len (fun _ => .uninit) } : World) = w4 := by
                  unfold baseAlloc at hb
                  split at hb
                  · cases hb
                  · split at hb
                    · injection hb with hb; injection hb with h1 h2
                      injection h1 with h1
                      subst h1; subst h2
                      simp only
                      congr 1
                      funext x
                      simp only [setBytes]
                      split <;> simp_all
                    · cases hb
                have hn : newChunkAlloc root sl l w4 = (do
                    let c ← initChunk sl root
                    match ← chunkAlloc c l with
                    | none => ub "unwrap_unchecked on None"
                    | some s => pure s : M Slice) w4 := by
                  unfold newChunkAlloc
                  rw [bind_ok (show markUninit sl w4 = .ok ((), w4) by unfold markUninit; rw [hmark])]
                  rfl
                simp only
                rw [bind_apply (x := newChunkAlloc root sl l), hn]
                cases hi : initChunk sl root w4 with
                | error e => rw [bind_err hi, bind_err hi]
                | ok y =>
                  obtain ⟨c, w5⟩ := y
                  have hc : c = sl.addr := initChunk_addr hi
                  subst hc
                  rw [bind_ok hi, bind_ok hi]
                  show (chunkAlloc sl.addr l >>= _) w5 = _
                  cases hca : chunkAlloc sl.addr l w5 with
                  | error e => rw [bind_err hca, bind_err hca]
                  | ok z =>
                    obtain ⟨o, w6⟩ := z
                    rw [bind_ok hca, bind_ok hca]
                    cases o <;> rfl
          · rw [bind_err (by unfold require; rw [if_neg hv])] at h
            cases h

end Blink
