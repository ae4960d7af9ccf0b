import Verif.Proofs.EnvRun
import Verif.Proofs.GlobalProxyRun
import Verif.Spec.GlobalBoth
/-
  Steps of a global allocator with proxies that are no direct calls do the same with and without blocks of others.
-/
namespace Blink

/-- The same state in the world `v`, with another log of direct calls. -/
def GSS.inWorld (g : GSS) (v : World) (d : List BaseEvent) : GSS := { g with s := { g.s with w := v }, dlog := d }

/-- The same outcome, up to the blocks of others. -/
def SameG (O : List BaseBlk) (m0 : Nat → Byte) (L d : List BaseEvent) (p q : Option (Option GResp × GSS)) : Prop :=
  (p = none ∧ q = none) ∨ ∃ r g v, p = some (r, g) ∧ q = some (r, g.inWorld v d) ∧ Priv O m0 g.s.w v ∧ g.dlog = L

theorem SameG.none {O m0 L d} : SameG O m0 L d none none := .inl ⟨rfl, rfl⟩
theorem SameG.some {O m0 L d} {r : Option GResp} {g : GSS} {v : World} (h : Priv O m0 g.s.w v) (hl : g.dlog = L) :
    SameG O m0 L d (Option.some (r, g)) (Option.some (r, g.inWorld v d)) := .inr ⟨r, g, v, rfl, rfl, h, hl⟩

theorem GSS.enter_rel {O m0 v d} {g : GSS} (h : Priv O m0 g.s.w v) (t : Nat) (c : GCall) (i : Call) :
    RelE O (SameG O m0 g.dlog d) (g.enter t c i) ((g.inWorld v d).enter t c i) := by
  refine (sstep_rel h (a := .call t i) fun _ _ he => by cases he).bind fun z z' hz => ?_
  rcases hz with ⟨rfl, rfl⟩ | ⟨r, s1, v1, rfl, rfl, hp⟩
  · exact .pure .none
  · exact .pure (.inr ⟨_, _, v1, rfl, rfl, hp, rfl⟩)

theorem GSS.begin_rel {O m0 v d} {g : GSS} (h : Priv O m0 g.s.w v) (t : Nat) (c : GCall) :
    RelE O (SameG O m0 g.dlog d) (g.begin t c) ((g.inWorld v d).begin t c) := by
  have hset : ∀ pc, RelE O (SameG O m0 g.dlog d) (pure (some (Option.none, g.setPc t pc))) (pure (some (Option.none, (g.inWorld v d).setPc t pc))) :=
    fun pc => .pure (.inr ⟨_, _, v, rfl, rfl, h, rfl⟩)
  have hen : (g.inWorld v d).enabled = g.enabled := rfl
  cases c with
  | alloc l =>
    simp only [GSS.begin, hen]
    split
    · exact GSS.enter_rel h _ _ _
    · exact hset _
  | allocZeroed l =>
    simp only [GSS.begin, hen]
    split
    · exact GSS.enter_rel h _ _ _
    · exact hset _
  | dealloc p l =>
    simp only [GSS.begin, hen]
    split
    · exact .error _
    · split
      · exact GSS.enter_rel h _ _ _
      · exact hset _
  | realloc p l n =>
    simp only [GSS.begin, hen]
    split
    · exact hset _
    · split
      · exact GSS.enter_rel h _ _ _
      · exact hset _

theorem ggo_rel {O m0 v d} {g : GSS} (h : Priv O m0 g.s.w v) (t : Nat) (ch : Choice) (hd : ∀ c, g.pcs t ≠ .direct c) :
    RelE O (SameG O m0 g.dlog d) (ggo g t ch) (ggo (g.inWorld v d) t ch) := by
  have hpcs : (g.inWorld v d).pcs t = g.pcs t := rfl
  have hdbg : v.debug = g.s.w.debug := h.debug.symm
  unfold ggo
  rw [hpcs]
  cases hpc : g.pcs t with
  | idle => exact .pure .none
  | blink c =>
    refine (goStep_rel h t ch).bind fun z z' hz => ?_
    rcases hz with ⟨rfl, rfl⟩ | ⟨r, s1, v1, rfl, rfl, hp⟩
    · exact .pure .none
    · cases r with
      | none => exact .pure (.inr ⟨_, _, v1, rfl, rfl, hp, rfl⟩)
      | some r =>
        dsimp only
        split <;> exact .pure (.inr ⟨_, _, v1, rfl, rfl, hp, rfl⟩)
  | direct c => exact absurd hpc (hd c)
  | zero l b k =>
    dsimp only
    split
    · by_cases ha : v.accessible (b.addr + k) 1 = true
      · rw [if_pos (h.access ha), if_pos (show (g.inWorld v d).s.w.accessible (b.addr + k) 1 = true from ha)]
        refine (sstep_rel h (a := .write (b.addr + k) (.raw 0)) fun x b' he => by cases he; exact ha).bind fun z z' hz => ?_
        rcases hz with ⟨rfl, rfl⟩ | ⟨r, s1, v1, rfl, rfl, hp⟩
        · exact .pure .none
        · exact .pure (.inr ⟨_, _, v1, rfl, rfl, hp, rfl⟩)
      · rw [if_neg (show ¬ (g.inWorld v d).s.w.accessible (b.addr + k) 1 = true from ha)]
        exact .of_error
    · exact .pure (.inr ⟨_, _, v, rfl, rfl, h, rfl⟩)
  | fin c r =>
    dsimp only
    have hc : (g.inWorld v d).counted c r = g.counted c r := by
      unfold GSS.counted GSS.inWorld
      dsimp only
      rw [hdbg]
    rw [hc]
    exact .pure (.inr ⟨_, _, v, rfl, rfl, h, rfl⟩)

theorem GSS.reset_rel {O m0 v d} {g : GSS} (h : Priv O m0 g.s.w v) :
    RelE O (SameG O m0 g.dlog d) g.reset (g.inWorld v d).reset := by
  have hdbg : v.debug = g.s.w.debug := h.debug.symm
  unfold GSS.reset
  have : (g.inWorld v d).s.w.debug = g.s.w.debug := hdbg
  rw [this]
  by_cases hc : g.s.w.debug = true ∧ g.allocations ≠ 0
  · rw [if_pos hc, if_pos (show g.s.w.debug = true ∧ (g.inWorld v d).allocations ≠ 0 from hc)]
    exact .pure (.inr ⟨_, _, v, rfl, rfl, h, rfl⟩)
  · rw [if_neg hc, if_neg (show ¬ (g.s.w.debug = true ∧ (g.inWorld v d).allocations ≠ 0) from hc)]
    refine (sstep_rel h (a := .resetUnchecked) fun _ _ he => by cases he).bind fun z z' hz => ?_
    rcases hz with ⟨rfl, rfl⟩ | ⟨r, s1, v1, rfl, rfl, hp⟩
    · exact .pure .none
    · exact .pure (.inr ⟨_, _, v1, rfl, rfl, hp, rfl⟩)

theorem gsstep_rel {O m0 v d} {g : GSS} (h : Priv O m0 g.s.w v) {a : GAct} (hw : ∀ x b, a = .write x b → v.accessible x 1 = true)
    (hd : ∀ t ch c, a = .go t ch → g.pcs t ≠ .direct c) :
    RelE O (SameG O m0 g.dlog d) (gsstep g a) (gsstep (g.inWorld v d) a) := by
  cases a with
  | call t c =>
    show RelE O _ (if g.pcs t = .idle then _ else _) (if g.pcs t = .idle then _ else _)
    split
    · exact GSS.begin_rel h t c
    · exact .pure .none
  | go t ch => exact ggo_rel h t ch fun c => hd t ch c rfl
  | write x b =>
    refine (sstep_rel h (a := .write x b) fun x b he => by cases he; exact hw _ _ rfl).bind fun z z' hz => ?_
    rcases hz with ⟨rfl, rfl⟩ | ⟨r, s1, v1, rfl, rfl, hp⟩
    · exact .pure .none
    · exact .pure (.inr ⟨_, _, v1, rfl, rfl, hp, rfl⟩)
  | reset => exact GSS.reset_rel h
  | blinkMode => exact .pure (.inr ⟨_, _, v, rfl, rfl, h, rfl⟩)
  | directMode =>
    refine (GSS.reset_rel h).bind fun z z' hz => ?_
    rcases hz with ⟨rfl, rfl⟩ | ⟨r, g1, v1, rfl, rfl, hp, hl⟩
    · exact .pure .none
    · cases r with
      | none => exact .pure (.inr ⟨_, _, v1, rfl, rfl, hp, hl⟩)
      | some r => cases r <;> exact .pure (.inr ⟨_, _, v1, rfl, rfl, hp, hl⟩)

end Blink
