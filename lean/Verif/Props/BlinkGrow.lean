import Verif.Props.BlinkEnd
import Verif.Props.BlinkAny
/-
  C87: how `from_iter` grows its buffer.
-/
namespace Blink

/-- How often the iterator was asked for its `size_hint` in a history of answers. -/
def hints (tr : List (BOp × BResp)) : Nat :=
  tr.countP fun e => match e.1 with
    | .hint _ _ => true
    | _ => false

/-- After `None` the iterator yields nothing more. -/
def Fused (tr : List (BOp × BResp)) : Prop := ∀ tr1 q tr2, tr = tr1 ++ (.next none, q) :: tr2 → yielded tr2 = 0

/-- The iterator never yields more items than the upper bound of a `size_hint` it gave. -/
def TrueUpper (tr : List (BOp × BResp)) : Prop := ∀ tr1 l u q tr2, tr = tr1 ++ (.hint l (some u), q) :: tr2 → yielded tr2 ≤ u

/-- The iterator has at least as many items left as the lower bound of a `size_hint` says, of `n` in all. -/
def TrueLower (n : Nat) (tr : List (BOp × BResp)) : Prop :=
  yielded tr ≤ n ∧ ∀ tr1 l u q tr2, tr = tr1 ++ (.hint l u, q) :: tr2 → yielded tr1 + l ≤ n

/-- The event is a request for this layout, granted or not. -/
def BaseEvent.Asks (l : Layout) : BaseEvent → Prop
  | .alloc l' _ => l' = l
  | .refused l' => l' = l
  | .dealloc _ _ => False

theorem hints_append (tr tr' : List (BOp × BResp)) : hints (tr ++ tr') = hints tr + hints tr' := List.countP_append ..

theorem Fused.prefix {tr tr' : List (BOp × BResp)} (h : Fused (tr ++ tr')) : Fused tr := by
  rintro tr1 q tr2 rfl
  have := h tr1 q (tr2 ++ tr') (by simp)
  rw [yielded_append] at this
  omega

theorem TrueUpper.prefix {tr tr' : List (BOp × BResp)} (h : TrueUpper (tr ++ tr')) : TrueUpper tr := by
  rintro tr1 l u q tr2 rfl
  have := h tr1 l u q (tr2 ++ tr') (by simp)
  rw [yielded_append] at this
  omega

/-- The buffer ends at `lim` after `G` rounds of growing: it has doubled each time, or the iterator said that it will not be filled. -/
def Doubled (tr : List (BOp × BResp)) (G lim count : Nat) : Prop :=
  1 ≤ G → 9 * 2 ^ G - 1 ≤ lim ∨ ∃ tr1 l u q tr2, tr = tr1 ++ (.hint l (some u), q) :: tr2 ∧ u + count ≤ yielded tr2 + lim

/-- What is known about the waiting call. -/
inductive Growing (tr : List (BOp × BResp)) (g : Guard) : Phase → Prop
  | hint0 (h : hints tr = 0) (hy : yielded tr = 0) (hc : g.count = 0) : Growing tr g .hint0
  | fill {G lim} (h : hints tr = G + 1) (hy : yielded tr = g.count) (hd : Doubled tr G lim g.count) (hl : g.count < lim)
      (hb : 2 ≤ G → 9 * 2 ^ (G - 1) ≤ yielded tr) : Growing tr g (.fill lim)
  | one {G} (h : hints tr = G + 1) (hy : yielded tr = g.count) (hd : Doubled tr G g.count g.count)
      (hb : 2 ≤ G → 9 * 2 ^ (G - 1) ≤ yielded tr) : Growing tr g .one
  | last {G tr1 q tr2} (h : hints tr = G + 1) (hn : tr = tr1 ++ (.next none, q) :: tr2)
      (hb : 2 ≤ G → 9 * 2 ^ (G - 1) ≤ yielded tr) : Growing tr g .one
  | hint {G x} (h : hints tr = G + 1) (hy : yielded tr = g.count + 1) (hd : 1 ≤ G → 9 * 2 ^ G - 1 ≤ g.count)
      (hb : 2 ≤ G → 9 * 2 ^ (G - 1) ≤ yielded tr) : Growing tr g (.hint x)

theorem Growing.bound {tr g ph} (h : Growing tr g ph) (h3 : 3 ≤ hints tr) : 9 * 2 ^ (hints tr - 2) ≤ yielded tr := by
  cases h with
  | hint0 h => omega
  | fill h _ _ _ hb => rw [h] at h3 ⊢; exact hb (by omega)
  | one h _ _ hb => rw [h] at h3 ⊢; exact hb (by omega)
  | last h _ hb => rw [h] at h3 ⊢; exact hb (by omega)
  | hint h _ _ hb => rw [h] at h3 ⊢; exact hb (by omega)

theorem mem_types {α} {b b' : BState} {x : M α} {a} (h : b.mem x = .ok (a, b')) : b'.types = b.types := by
  unfold BState.mem at h
  obtain ⟨⟨_, _⟩, _, h⟩ := ebind_split h
  cases h; rfl

theorem allocate_types {b b' : BState} {l o} (h : b.allocate l = .ok (o, b')) : b'.types = b.types := by
  unfold BState.allocate at h
  obtain ⟨⟨r, st⟩, _, h⟩ := ebind_split h
  split at h <;> (cases h; rfl)

theorem grow_types {b b' : BState} {p l l' o} (h : b.grow p l l' = .ok (o, b')) : b'.types = b.types := by
  unfold BState.grow at h
  split at h
  · cases h
  obtain ⟨⟨r, st⟩, _, h⟩ := ebind_split h
  split at h <;> (cases h; rfl)

theorem le_up {n a : Nat} (ha : 0 < a) : n ≤ up n a := by
  unfold up
  have := Nat.div_add_mod (n + a - 1) a
  have := Nat.mod_lt (n + a - 1) ha
  rw [Nat.mul_comm]
  omega

/-- A buffer for `hint` items holds that many. -/
theorem fillLayout_room {t : RTy} {nd : Bool} {hint : Nat} {full : Layout} {off : Nat} (h : fillLayout t nd hint = some (full, off)) (ha : 0 < t.align) :
    arrOff t nd + hint * t.size ≤ full.size := by
  unfold fillLayout at h
  rw [Option.bind_eq_bind, Option.bind_eq_some_iff] at h
  obtain ⟨ar, h1, h2⟩ := h
  unfold arrayLayout at h1
  split at h1
  · cases h1
    unfold arrOff
    cases nd with
    | true => cases h2; simp
    | false =>
      simp only [Bool.false_eq_true, if_false] at h2 ⊢
      unfold Layout.extend at h2
      simp only at h2
      split at h2
      · cases h2
        have := le_up (n := (dropItem 0 t.align).size) ha
        dsimp only
        omega
      · cases h2
  · cases h1

theorem fillStart_grow {b b' : BState} {r nd} {g g' : Guard} {hint x} (h : b.fillStart r nd g hint x = .ok (some g', b')) (hs : (b.types r).size ≠ 0)
    (ha : 0 < (b.types r).align) :
    b'.types = b.types ∧ g'.count = (if x.isSome then g.count + 1 else g.count) ∧ hint ≤ fillLimit nd g' hint := by
  unfold BState.fillStart at h
  simp only at h
  split at h
  · cases h
  rename_i full off hf
  have hroom := fillLayout_room hf ha
  obtain ⟨⟨_, b1⟩, h1, h⟩ := ebind_split h
  have t1 := mem_types h1
  cases hb : g.blk
  all_goals
    rw [hb] at h
    obtain ⟨⟨o, b2⟩, h2, h⟩ := ebind_split h
    have t2 : b2.types = b1.types := by first | exact allocate_types h2 | exact grow_types h2
    cases o with
    | none => cases h
    | some blk =>
      simp only at h
      obtain ⟨⟨_, b3⟩, h3, h⟩ := ebind_split h
      have t3 := mem_types h3
      have hcap : hint ≤ (if full.size < blk.len then (blk.len - arrOff (b.types r) nd) / (b.types r).size else hint) := by
        split
        · rw [Nat.le_div_iff_mul_le (Nat.pos_of_ne_zero hs)]; omega
        · exact Nat.le_refl _
      have hlim : ∀ c, hint ≤ fillLimit nd { g with blk := some blk, layout := full, cap := (if full.size < blk.len then (blk.len - arrOff (b.types r) nd) / (b.types r).size else hint), count := c } hint := by
        intro c
        unfold fillLimit
        cases nd with
        | true => exact Nat.le_refl _
        | false => exact hcap
      cases x with
      | none =>
        cases h
        exact ⟨by rw [t3, t2, t1], rfl, hlim _⟩
      | some v =>
        simp only at h
        obtain ⟨⟨_, b4⟩, h4, h⟩ := ebind_split h
        obtain ⟨⟨_, b5⟩, h5, h⟩ := ebind_split h
        cases h
        exact ⟨by rw [mem_types h5, mem_types h4, t3, t2, t1], rfl, hlim _⟩

theorem sizeHintAndOne_none {lower count h} (hs : sizeHintAndOne lower none count = some h) : h = count + (max lower count + 1) := by
  unfold sizeHintAndOne checkedAdd at hs
  simp only [Option.bind_eq_bind] at hs
  rw [Option.bind_eq_some_iff] at hs
  obtain ⟨a, h1, h2⟩ := hs
  split at h1
  · cases h1
    split at h2
    · cases h2; rfl
    · cases h2
  · cases h1

theorem sizeHintAndOne_some {lower u count h} (hs : sizeHintAndOne lower (some u) count = some h) : h = count + (max lower (min u count) + 1) := by
  unfold sizeHintAndOne checkedAdd at hs
  simp only [Option.bind_eq_bind] at hs
  rw [Option.bind_eq_some_iff] at hs
  obtain ⟨a, h1, h2⟩ := hs
  split at h1
  · cases h1
    split at h2
    · cases h2; rfl
    · cases h2
  · cases h1

theorem wait_eq {b b' : BState} {f : Frame} {q : Ask} (h : b.wait f = .ok (.wait q, b')) : b' = { b with frames := f :: b.frames } := by
  unfold BState.wait at h
  injection h with h
  injection h with _ h
  exact h.symm

theorem yielded_hint (l u q) : yielded [(.hint l u, q)] = 0 := rfl
theorem yielded_none (q) : yielded [(.next none, q)] = 0 := rfl
theorem yielded_some (v q) : yielded [(.next (some v), q)] = 1 := rfl
theorem hints_hint (l u q) : hints [(.hint l u, q)] = 1 := rfl
theorem hints_next (v q) : hints [(.next v, q)] = 0 := rfl

/-- A round of `fill` begins. -/
theorem Growing.enter {tr : List (BOp × BResp)} {g : Guard} {G lim : Nat} (h : hints tr = G + 1) (hy : yielded tr = g.count)
    (hd : Doubled tr G lim g.count) (hb : 2 ≤ G → 9 * 2 ^ (G - 1) ≤ yielded tr) (hl : g.count ≤ lim) : Growing tr g (fillPhase g.count lim) := by
  unfold fillPhase
  split
  · exact .fill h hy hd (by assumption) hb
  · have : lim = g.count := by omega
    rw [this] at hd
    exact .one h hy hd hb

/-- What is known while the call waits. -/
structure Filling (tr : List (BOp × BResp)) (r : Nat) (b : BState) : Prop where
  top : ∃ nd g ph fs, b.frames = .iter r nd g ph :: fs ∧ Growing tr g ph
  size : (b.types r).size ≠ 0
  align : 0 < (b.types r).align

theorem Filling.hint {tr r b b' lower upper q} (h : Filling tr r b) (hs : bstep b (.hint lower upper) = .ok (.wait q, b')) :
    Filling (tr ++ [(.hint lower upper, .wait q)]) r b' := by
  obtain ⟨⟨nd, g, ph, fs, hf, hg⟩, hsz, hal⟩ := h
  simp only [bstep, hf, BState.resume] at hs
  unfold BState.iterHint at hs
  split at hs
  · obtain ⟨h1, h2, h3⟩ : hints tr = 0 ∧ yielded tr = 0 ∧ g.count = 0 := by cases hg with | hint0 a b c => exact ⟨a, b, c⟩
    have e1 : hints (tr ++ [(.hint lower upper, .wait q)]) = 0 + 1 := by rw [hints_append, h1, hints_hint]
    have e2 : yielded (tr ++ [(.hint lower upper, .wait q)]) = 0 := by rw [yielded_append, h2, yielded_hint]
    split at hs
    · obtain ⟨⟨o, b1⟩, hfs, hs⟩ := ebind_split hs
      cases o with
      | none =>
        obtain ⟨_, _, hs⟩ := ebind_split hs
        cases hs
      | some g1 =>
        obtain ⟨t1, c1, l1⟩ := fillStart_grow hfs hsz hal
        rw [wait_eq hs]
        simp only [Option.isSome_none, Bool.false_eq_true, if_false] at c1
        refine ⟨⟨nd, g1, _, _, rfl, .enter e1 (by rw [e2, c1, h3]) (fun h => by omega) (fun h => by omega) (by omega)⟩, ?_, ?_⟩
        · rw [show b1.types = b.types from t1]; exact hsz
        · rw [show b1.types = b.types from t1]; exact hal
    · rw [wait_eq hs]
      exact ⟨⟨nd, g, _, _, rfl, .one e1 (by rw [e2, h3]) (fun h => by omega) (fun h => by omega)⟩, hsz, hal⟩
  · rename_i x
    obtain ⟨G, h1, h2, h3, h4⟩ : ∃ G, hints tr = G + 1 ∧ yielded tr = g.count + 1 ∧ (1 ≤ G → 9 * 2 ^ G - 1 ≤ g.count) ∧
        (2 ≤ G → 9 * 2 ^ (G - 1) ≤ yielded tr) := by cases hg with | hint a b c d => exact ⟨_, a, b, c, d⟩
    have e1 : hints (tr ++ [(.hint lower upper, .wait q)]) = (G + 1) + 1 := by rw [hints_append, h1, hints_hint]
    have e2 : yielded (tr ++ [(.hint lower upper, .wait q)]) = g.count + 1 := by rw [yielded_append, h2, yielded_hint]
    split at hs
    · obtain ⟨_, _, hs⟩ := ebind_split hs
      cases hs
    · rename_i hint hh
      obtain ⟨⟨o, b1⟩, hfs, hs⟩ := ebind_split hs
      cases o with
      | none =>
        obtain ⟨_, _, hs⟩ := ebind_split hs
        cases hs
      | some g1 =>
        obtain ⟨t1, c1, l1⟩ := fillStart_grow hfs hsz hal
        rw [wait_eq hs]
        simp only [Option.isSome_some, if_true] at c1
        have hF : FASTER_START = 8 := rfl
        rw [hF] at hh
        have hle : max g.count 8 + 1 ≤ hint := by
          cases upper with
          | none => have := sizeHintAndOne_none hh; omega
          | some u => have := sizeHintAndOne_some hh; omega
        have hc8 : 8 ≤ max g.count 8 ∧ g.count ≤ max g.count 8 := ⟨Nat.le_max_right .., Nat.le_max_left ..⟩
        generalize max g.count 8 = c8 at hh hc8 hle
        have hp : 9 * 2 ^ G - 1 ≤ c8 ∧ 1 ≤ 2 ^ G := by
          refine ⟨?_, Nat.one_le_two_pow⟩
          rcases Nat.eq_zero_or_pos G with rfl | hG
          · simpa using hc8.1
          · exact Nat.le_trans (h3 hG) hc8.2
        refine ⟨⟨nd, g1, _, _, rfl, .enter e1 (by rw [e2, c1]) ?_ ?_ ?_⟩, ?_, ?_⟩
        · intro _
          rw [Nat.pow_succ]
          cases upper with
          | none =>
            left
            have hh := sizeHintAndOne_none hh
            omega
          | some u =>
            have hh := sizeHintAndOne_some hh
            by_cases hu : c8 ≤ u
            · left
              rw [Nat.min_eq_right hu] at hh
              omega
            · right
              rw [Nat.min_eq_left (by omega)] at hh
              refine ⟨tr, lower, u, _, [], rfl, ?_⟩
              rw [c1]
              have : yielded [] = 0 := rfl
              omega
        · intro hG
          rw [e2]
          have := h3 (by omega)
          simp only [Nat.add_sub_cancel]
          omega
        · rw [c1]; omega
        · rw [show b1.types = b.types from t1]; exact hsz
        · rw [show b1.types = b.types from t1]; exact hal
  · cases hs

theorem Doubled.snoc {tr : List (BOp × BResp)} {G lim count count' : Nat} {e} (h : Doubled tr G lim count) (hc : count' ≤ count + yielded [e]) :
    Doubled (tr ++ [e]) G lim count' := by
  intro hG
  rcases h hG with h | ⟨tr1, l, u, q, tr2, rfl, h⟩
  · exact .inl h
  · refine .inr ⟨tr1, l, u, q, tr2 ++ [e], by simp, ?_⟩
    rw [yielded_append]
    omega

theorem Filling.next {tr r b b' x q} (h : Filling tr r b) (hs : bstep b (.next x) = .ok (.wait q, b'))
    (hF : Fused (tr ++ [(.next x, .wait q)])) (hU : TrueUpper (tr ++ [(.next x, .wait q)])) : Filling (tr ++ [(.next x, .wait q)]) r b' := by
  obtain ⟨⟨nd, g, ph, fs, hf, hg⟩, hsz, hal⟩ := h
  simp only [bstep, hf, BState.resume] at hs
  unfold BState.iterNext at hs
  split at hs
  · rename_i lim
    obtain ⟨G, h1, h2, h3, h4, h5⟩ : ∃ G, hints tr = G + 1 ∧ yielded tr = g.count ∧ Doubled tr G lim g.count ∧ g.count < lim ∧
        (2 ≤ G → 9 * 2 ^ (G - 1) ≤ yielded tr) := by cases hg with | fill a b c d e => exact ⟨_, a, b, c, d, e⟩
    split at hs
    · cases hs
    · split at hs
      · rename_i v
        obtain ⟨⟨_, b1⟩, hm, hs⟩ := ebind_split hs
        have t1 := mem_types hm
        rw [wait_eq hs]
        refine ⟨⟨nd, _, _, _, rfl, .enter (g := { g with count := g.count + 1 }) (G := G) ?_ ?_ ?_ ?_ ?_⟩, ?_, ?_⟩
        · rw [hints_append, h1, hints_next]
        · rw [yielded_append, h2, yielded_some]
        · exact h3.snoc (by rw [yielded_some]; exact Nat.le_refl _)
        · intro hG; rw [yielded_append]; have := h5 hG; omega
        · exact h4
        · rw [show b1.types = b.types from t1]; exact hsz
        · rw [show b1.types = b.types from t1]; exact hal
      · have hl : Growing (tr ++ [(.next none, .wait q)]) g .one :=
          .last (G := G) (by rw [hints_append, h1, hints_next]) rfl (fun hG => by rw [yielded_append]; have := h5 hG; omega)
        simp only at hs
        split at hs
        · obtain ⟨⟨_, b1⟩, hm, hs⟩ := ebind_split hs
          have t1 := mem_types hm
          rw [wait_eq hs]
          refine ⟨⟨nd, g, _, _, rfl, hl⟩, ?_, ?_⟩
          · rw [show b1.types = b.types from t1]; exact hsz
          · rw [show b1.types = b.types from t1]; exact hal
        · rw [wait_eq hs]
          exact ⟨⟨nd, g, _, _, rfl, hl⟩, hsz, hal⟩
  · split at hs
    · obtain ⟨_, _, hs⟩ := ebind_split hs
      cases hs
    · rename_i v
      rw [wait_eq hs]
      refine ⟨⟨nd, g, _, _, rfl, ?_⟩, hsz, hal⟩
      cases hg with
      | @one G h1 h2 h3 h4 =>
        refine .hint (G := G) (by rw [hints_append, h1, hints_next]) (by rw [yielded_append, h2, yielded_some]) ?_ ?_
        · intro hG
          rcases h3 hG with h3 | ⟨tr1, l, u, q1, tr2, rfl, h3⟩
          · exact h3
          · have := hU tr1 l u q1 (tr2 ++ [(.next (some v), .wait q)]) (by simp)
            rw [yielded_append, yielded_some] at this
            omega
        · intro hG; rw [yielded_append]; have := h4 hG; omega
      | @last G tr1 q1 tr2 h1 h2 h3 =>
        subst h2
        have := hF tr1 q1 (tr2 ++ [(.next (some v), .wait q)]) (by simp)
        rw [yielded_append, yielded_some] at this
        omega
  · cases hs

theorem Filling.start {b0 b b1 : BState} {bk e r q} (h : BReach b0 b bk) (hz : (b0.types r).size ≠ 0)
    (hs : bstep b (.fromIter e r) = .ok (.wait q, b1)) : Filling [] r b1 ∧ b1.kind = b.kind := by
  obtain ⟨cs, items, hw⟩ := h.wk
  have ht : b.types = b0.types := hw.types
  simp only [bstep, BState.start] at hs
  rw [if_neg (by rw [ht]; exact hz)] at hs
  rw [wait_eq hs]
  refine ⟨⟨⟨_, _, _, _, rfl, .hint0 rfl rfl rfl⟩, by rw [ht]; exact hz, ?_⟩, rfl⟩
  obtain ⟨k, hk⟩ := (h.1.types r).align
  rw [ht, hk]
  exact Nat.two_pow_pos k

/-- C87: `from_iter` (for items that are not zero-sized) asks its iterator for a `size_hint`, and hence the allocator for a larger buffer, only
logarithmically often: the buffer doubles every time. When the hint was asked `H ≥ 3` times, at least `9 * 2^(H-2)` items were yielded. For
iterators that yield nothing after `None` and never more than their upper bound; lower bounds may be wrong. -/
theorem C87_few_hints {b0 b b1 b2 : BState} {bk bk1 bk2 : BBook} {e r q} {tr : List (BOp × BResp)}
    (h : BReach b0 b bk) (hz : (b0.types r).size ≠ 0) (hs : bstep b (.fromIter e r) = .ok (.wait q, b1))
    (ht : BSteps b0 b0.safe b1 bk1 tr b2 bk2) (hw : ∀ a ∈ tr, a.1.answers ∧ ∃ q, a.2 = .wait q) (hF : Fused tr) (hU : TrueUpper tr)
    (h3 : 3 ≤ hints tr) : 9 * 2 ^ (hints tr - 2) ≤ yielded tr := by
  suffices Filling tr r b2 by
    obtain ⟨⟨_, _, _, _, _, hg⟩, _, _⟩ := this
    exact hg.bound h3
  clear h3
  have h0 := (Filling.start h hz hs).1
  clear hs
  induction ht with
  | nil => exact h0
  | @snoc _ _ _ op resp _ _ _ ho hl hs1 ha ih =>
    have ih := ih (fun a hm => hw a (List.mem_append_left _ hm)) hF.prefix hU.prefix
    obtain ⟨h1, q1, h2⟩ := hw (op, resp) (List.mem_append_right _ List.mem_cons_self)
    simp only at h1 h2
    subst h2
    cases op <;> try (cases h1; done)
    case hint => exact ih.hint hs1
    case next => exact ih.next hs1 hF hU
    case nth x =>
      obtain ⟨⟨nd, g, ph, fs, hf, hg⟩, _, _⟩ := ih
      simp only [bstep, hf, BState.resume] at hs1
      cases hs1

/-! ### How much is asked for -/

/-- From `b` to `b'` only layouts with `P` were requested. -/
structure Asked (P : Layout → Prop) (b b' : BState) : Prop where
  kind : b'.kind = b.kind
  types : b'.types = b.types
  log : ∃ evs, b'.s.w.log = evs ++ b.s.w.log ∧ ∀ e ∈ evs, ∀ l, e.Asks l → P l

theorem Asked.refl {P} (b : BState) : Asked P b b := ⟨rfl, rfl, [], rfl, nofun⟩

theorem Asked.trans {P b b1 b2} (h1 : Asked P b b1) (h2 : Asked P b1 b2) : Asked P b b2 := by
  obtain ⟨k1, t1, e1, l1, a1⟩ := h1
  obtain ⟨k2, t2, e2, l2, a2⟩ := h2
  refine ⟨k2.trans k1, t2.trans t1, e2 ++ e1, by rw [l2, l1, List.append_assoc], fun e he => ?_⟩
  rcases List.mem_append.mp he with he | he
  · exact a2 e he
  · exact a1 e he

theorem Asked.of_frames {P b b'} {fs} (h : Asked P { b with frames := fs } b') : Asked P b b' := ⟨h.kind, h.types, h.log⟩

/-- `x` asks for nothing. -/
def LQuiet {α} (x : M α) : Prop := ∀ w a w', x w = .ok (a, w') → w'.log = w.log

theorem LQuiet.bind {α β} {x : M α} {f : α → M β} (hx : LQuiet x) (hf : ∀ a, LQuiet (f a)) : LQuiet (x >>= f) := by
  intro w b w' h
  obtain ⟨a, w1, h1, h2⟩ := mbind_inv h
  rw [hf a _ _ _ h2, hx _ _ _ h1]

theorem lquiet_dassert (c : Prop) [Decidable c] (msg : String) : LQuiet (dassert c msg) := by
  intro w a w' h
  unfold dassert at h
  split at h <;> cases h
  rfl

theorem lquiet_require (c : Prop) [Decidable c] (msg : String) : LQuiet (require c msg) := by
  intro w a w' h
  unfold require at h
  split at h <;> cases h
  rfl

theorem lquiet_storeWord (x v : Nat) : LQuiet (storeWord x v) := by
  intro w a w' h
  unfold storeWord at h
  split at h <;> cases h
  rfl

theorem lquiet_writeIn (blk : Slice) (x n al : Nat) (f : Nat → Byte) : LQuiet (writeIn blk x n al f) := by
  intro w a w' h
  unfold writeIn at h
  split at h <;> cases h
  rfl

theorem lquiet_initDrops (blk : Slice) (count fn : Nat) : LQuiet (initDrops blk count fn) :=
  .bind (lquiet_require _ _) fun _ => .bind (lquiet_storeWord _ _) fun _ => .bind (lquiet_storeWord _ _) fun _ => lquiet_storeWord _ _

theorem Asked.mem {P α} {b b' : BState} {x : M α} {a : α} (hx : LQuiet x) (h : b.mem x = .ok (a, b')) : Asked P b b' := by
  unfold BState.mem at h
  obtain ⟨⟨c, w⟩, h1, h2⟩ := ebind_split h
  cases h2
  exact ⟨rfl, rfl, [], hx _ _ _ h1, nofun⟩

theorem Asked.allocate {P : Layout → Prop} {b b' : BState} {l o} {exact keeps others} (hk : b.kind = .any exact keeps others)
    (h : b.allocate l = .ok (o, b')) (hl : P l) : Asked P b b' := by
  unfold BState.allocate AKind.step anyStep St.mem baseAlloc at h
  rw [hk] at h
  obtain ⟨⟨res, st⟩, h1, h⟩ := ebind_split h
  have hb' : b'.kind = b.kind ∧ b'.types = b.types ∧ b'.s = st := by
    rw [hk]
    cases res <;> (cases h; exact ⟨rfl, rfl, rfl⟩)
  refine ⟨hb'.1, hb'.2.1, ?_⟩
  rw [hb'.2.2]
  simp only at h1
  obtain ⟨⟨res1, w⟩, h2, h1⟩ := ebind_split h1
  cases h1
  split at h2
  · cases h2
    exact ⟨[.refused l], rfl, by simp [BaseEvent.Asks]; exact hl⟩
  · split at h2
    · cases h2
      refine ⟨[.alloc l _], rfl, by simp [BaseEvent.Asks]; exact hl⟩
    · cases h2

theorem Asked.grow {P : Layout → Prop} {b b' : BState} {p l l' o} {exact keeps others} (hk : b.kind = .any exact keeps others)
    (h : b.grow p l l' = .ok (o, b')) (hl : P l') : Asked P b b' := by
  unfold BState.grow AKind.step anyStep St.mem baseResize at h
  rw [hk] at h
  split at h
  · cases h
  obtain ⟨⟨res, st⟩, h1, h⟩ := ebind_split h
  have hb' : b'.kind = b.kind ∧ b'.types = b.types ∧ b'.s = st := by
    rw [hk]
    cases res <;> (cases h; exact ⟨rfl, rfl, rfl⟩)
  refine ⟨hb'.1, hb'.2.1, ?_⟩
  rw [hb'.2.2]
  simp only at h1
  obtain ⟨⟨res1, w⟩, h2, h1⟩ := ebind_split h1
  cases h1
  split at h2
  · cases h2
  split at h2
  · cases h2
  split at h2
  · cases h2
  split at h2
  · cases h2
    exact ⟨[.refused l'], rfl, by simp [BaseEvent.Asks]; exact hl⟩
  · split at h2
    · cases h2
      refine ⟨[.alloc l' _, .dealloc p l], rfl, by simp [BaseEvent.Asks]; exact hl⟩
    · cases h2

theorem Asked.dealloc {P : Layout → Prop} {b b' : BState} {p l} {exact keeps others} (hk : b.kind = .any exact keeps others)
    (h : b.dealloc p l = .ok b') : Asked P b b' := by
  unfold BState.dealloc baseDealloc at h
  rw [hk] at h
  obtain ⟨⟨res, w⟩, h1, h⟩ := ebind_split h
  cases h
  refine ⟨hk.symm, rfl, ?_⟩
  split at h1
  · cases h1
    exact ⟨[.dealloc p l], rfl, by simp [BaseEvent.Asks]⟩
  · cases h1

theorem Asked.initSlice {P : Layout → Prop} {b b' : BState} {r blk n a} (h : b.initSlice r blk n = .ok (a, b')) : Asked P b b' := by
  unfold BState.initSlice at h
  obtain ⟨⟨_, b1⟩, h1, h⟩ := ebind_split h
  obtain ⟨⟨_, b2⟩, h2, h⟩ := ebind_split h
  cases h
  exact (Asked.mem (lquiet_dassert _ _) h1).trans (.mem (lquiet_initDrops _ _ _) h2)

theorem Asked.add {P : Layout → Prop} {b b' : BState} {i} (h : b.add i = .ok b') : Asked P b b' := by
  unfold BState.add at h
  obtain ⟨⟨_, b1⟩, h1, h⟩ := ebind_split h
  cases h
  obtain ⟨k, t, l⟩ := Asked.mem (P := P) (lquiet_storeWord _ _) h1
  exact ⟨k, t, l⟩

theorem Asked.flush {P : Layout → Prop} {b b' : BState} {r nd g o} {exact keeps others} (hk : b.kind = .any exact keeps others)
    (h : b.flush r nd g = .ok (o, b')) : Asked P b b' := by
  unfold BState.flush at h
  simp only at h
  split at h
  · cases h; exact .refl _
  split at h
  · split at h
    · cases h; exact .refl _
    · obtain ⟨⟨_, b1⟩, h1, h⟩ := ebind_split h
      obtain ⟨b2, h2, h⟩ := ebind_split h
      cases h
      exact (Asked.initSlice h1).trans (.add h2)
  · obtain ⟨b1, h1, h⟩ := ebind_split h
    cases h
    exact .dealloc hk h1

theorem Asked.fillStart {P : Layout → Prop} {b b' : BState} {r nd g hint x o} {exact keeps others} (hk : b.kind = .any exact keeps others)
    (h : b.fillStart r nd g hint x = .ok (o, b')) (hP : ∀ full off, fillLayout (b.types r) nd hint = some (full, off) → P full) : Asked P b b' := by
  unfold BState.fillStart at h
  simp only at h
  split at h
  · cases h; exact .refl _
  rename_i full off hf
  have hP := hP full off hf
  obtain ⟨⟨_, b1⟩, h1, h⟩ := ebind_split h
  have t1 : Asked P b b1 := .mem (lquiet_dassert _ _) h1
  have hk1 := t1.kind.trans hk
  cases hb : g.blk
  all_goals
    rw [hb] at h
    obtain ⟨⟨o, b2⟩, h2, h⟩ := ebind_split h
    have t2 : Asked P b b2 := t1.trans (by first | exact .allocate hk1 h2 hP | exact .grow hk1 h2 hP)
    cases o with
    | none => cases h; exact t2
    | some blk =>
      simp only at h
      obtain ⟨⟨_, b3⟩, h3, h⟩ := ebind_split h
      have t3 := t2.trans (.mem (lquiet_dassert _ _) h3)
      cases x with
      | none => cases h; exact t3
      | some v =>
        simp only at h
        obtain ⟨⟨_, b4⟩, h4, h⟩ := ebind_split h
        obtain ⟨⟨_, b5⟩, h5, h⟩ := ebind_split h
        cases h
        exact (t3.trans (.mem (lquiet_dassert _ _) h4)).trans (.mem (lquiet_writeIn _ _ _ _ _) h5)

theorem fillLayout_size {t : RTy} {nd : Bool} {hint : Nat} {full : Layout} {off : Nat} (h : fillLayout t nd hint = some (full, off))
    (ha : ∃ k, t.align = 2 ^ k) : full.size ≤ 24 + t.align + hint * t.size := by
  unfold fillLayout at h
  rw [Option.bind_eq_bind, Option.bind_eq_some_iff] at h
  obtain ⟨ar, h1, h2⟩ := h
  unfold arrayLayout at h1
  split at h1
  · cases h1
    cases nd with
    | true => cases h2; exact Nat.le_add_left ..
    | false =>
      simp only [Bool.false_eq_true, if_false] at h2
      unfold Layout.extend at h2
      simp only at h2
      split at h2
      · cases h2
        have hp : 0 < t.align := by obtain ⟨k, hk⟩ := ha; rw [hk]; exact Nat.two_pow_pos k
        rw [dropItem_zero ha, up_of_mod hp (valueOff_facts ha).2]
        have := (up_facts DROPS_SIZE hp).2.1
        have hd : DROPS_SIZE = 24 := rfl
        unfold valueOff
        dsimp only
        omega
      · cases h2
  · cases h1

/-- The waiting call, for the second statement. -/
structure Holding (tr : List (BOp × BResp)) (t : RTy) (r : Nat) (b : BState) : Prop where
  top : ∃ nd g ph fs, b.frames = .iter r nd g ph :: fs ∧ g.count ≤ yielded tr ∧ ∀ x, ph = .hint x → g.count + 1 ≤ yielded tr
  type : b.types r = t
  any : ∃ exact keeps others, b.kind = .any exact keeps others

/-- At most what `n` items may need. -/
def Modest (n : Nat) (t : RTy) (l : Layout) : Prop := l.size ≤ 24 + t.align + (2 * n + 15) * t.size

theorem fillStart_count {b b' : BState} {r nd} {g g' : Guard} {hint x} (h : b.fillStart r nd g hint x = .ok (some g', b')) :
    g'.count = (if x.isSome then g.count + 1 else g.count) := by
  unfold BState.fillStart at h
  simp only at h
  split at h
  · cases h
  obtain ⟨⟨_, b1⟩, h1, h⟩ := ebind_split h
  cases hb : g.blk
  all_goals
    rw [hb] at h
    obtain ⟨⟨o, b2⟩, h2, h⟩ := ebind_split h
    cases o with
    | none => cases h
    | some blk =>
      simp only at h
      obtain ⟨⟨_, b3⟩, h3, h⟩ := ebind_split h
      cases x with
      | none => cases h; rfl
      | some v =>
        simp only at h
        obtain ⟨⟨_, b4⟩, h4, h⟩ := ebind_split h
        obtain ⟨⟨_, b5⟩, h5, h⟩ := ebind_split h
        cases h; rfl

theorem fillPhase_ne (c lim x : Nat) : fillPhase c lim ≠ .hint x := by
  unfold fillPhase
  split <;> nofun

theorem Holding.hint {tr t r b b' lower upper resp n} (h : Holding tr t r b) (hs : bstep b (.hint lower upper) = .ok (resp, b'))
    (ha : ∃ k, t.align = 2 ^ k) (hn : yielded tr + lower ≤ n) :
    Asked (Modest n t) b b' ∧ ∀ q, resp = .wait q → Holding (tr ++ [(.hint lower upper, resp)]) t r b' := by
  obtain ⟨⟨nd, g, ph, fs, hf, hc, hh⟩, ht, ex, ke, ot, hk⟩ := h
  simp only [bstep, hf, BState.resume] at hs
  unfold BState.iterHint at hs
  have hy : yielded (tr ++ [(.hint lower upper, resp)]) = yielded tr := by rw [yielded_append]; rfl
  have hlay : ∀ hint full off, hint ≤ 2 * n + 15 → fillLayout (b.types r) nd hint = some (full, off) → Modest n t full := by
    intro hint full off hle hfl
    rw [ht] at hfl
    have := fillLayout_size hfl ha
    have := Nat.mul_le_mul_right t.size hle
    unfold Modest
    omega
  split at hs
  · split at hs
    · obtain ⟨⟨o, b1⟩, hfs, hs⟩ := ebind_split hs
      have A : Asked (Modest n t) b b1 := .of_frames <| .fillStart (b := { b with frames := fs }) hk hfs fun full off => hlay _ full off (by
        have hF : FASTER_START = 8 := rfl
        rw [hF]
        omega)
      have hk1 := A.kind.trans hk
      cases o with
      | none =>
        obtain ⟨⟨⟨a, m⟩, b2⟩, h2, hs⟩ := ebind_split hs
        cases hs
        exact ⟨A.trans (.flush hk1 h2), nofun⟩
      | some g1 =>
        have hg := fillStart_count hfs
        simp only [Option.isSome_none, Bool.false_eq_true, if_false] at hg
        cases hs
        exact ⟨⟨A.kind, A.types, A.log⟩, fun q _ => ⟨⟨nd, g1, _, _, rfl, by rw [hy, hg]; exact hc, fun x hx => (fillPhase_ne _ _ _ hx).elim⟩, (congrFun A.types r).trans ht, ex, ke, ot, hk1⟩⟩
    · cases hs
      exact ⟨⟨rfl, rfl, [], rfl, nofun⟩, fun q _ => ⟨⟨nd, g, _, _, rfl, by rw [hy]; exact hc, nofun⟩, ht, ex, ke, ot, hk⟩⟩
  · rename_i x
    have hh := hh x rfl
    split at hs
    · obtain ⟨⟨⟨a, m⟩, b2⟩, h2, hs⟩ := ebind_split hs
      cases hs
      obtain ⟨k, t, l⟩ := Asked.flush (P := Modest n t) (b := { b with frames := fs }) hk h2
      exact ⟨⟨k, t, l⟩, nofun⟩
    · rename_i hint hsz
      have hF : FASTER_START = 8 := rfl
      rw [hF] at hsz
      have hle : hint ≤ 2 * n + 15 := by
        have h1 : max g.count 8 ≤ n + 7 ∧ max g.count 8 + lower ≤ n + 8 ∧ max g.count 8 ≤ g.count + 8 := by omega
        generalize hc8 : max g.count 8 = c8 at hsz h1
        cases upper with
        | none =>
          have := sizeHintAndOne_none hsz
          omega
        | some u =>
          have := sizeHintAndOne_some hsz
          omega
      obtain ⟨⟨o, b1⟩, hfs, hs⟩ := ebind_split hs
      have A : Asked (Modest n t) b b1 := .of_frames <| .fillStart (b := { b with frames := fs }) hk hfs fun full off => hlay _ full off hle
      have hk1 := A.kind.trans hk
      cases o with
      | none =>
        obtain ⟨⟨⟨a, m⟩, b2⟩, h2, hs⟩ := ebind_split hs
        cases hs
        exact ⟨A.trans (.flush hk1 h2), nofun⟩
      | some g1 =>
        have hg := fillStart_count hfs
        simp only [Option.isSome_some, if_true] at hg
        cases hs
        exact ⟨⟨A.kind, A.types, A.log⟩, fun q _ => ⟨⟨nd, g1, _, _, rfl, by rw [hy, hg]; exact hh, fun x hx => (fillPhase_ne _ _ _ hx).elim⟩, (congrFun A.types r).trans ht, ex, ke, ot, hk1⟩⟩
  · cases hs

theorem Holding.next {tr t r b b' x resp n} (h : Holding tr t r b) (hs : bstep b (.next x) = .ok (resp, b')) :
    Asked (Modest n t) b b' ∧ ∀ q, resp = .wait q → Holding (tr ++ [(.next x, resp)]) t r b' := by
  obtain ⟨⟨nd, g, ph, fs, hf, hc, hh⟩, ht, ex, ke, ot, hk⟩ := h
  simp only [bstep, hf, BState.resume] at hs
  unfold BState.iterNext at hs
  have hy : yielded (tr ++ [(.next x, resp)]) = yielded tr + yielded [(.next x, resp)] := yielded_append ..
  split at hs
  · split at hs
    · cases hs
    · split at hs
      · rename_i v
        obtain ⟨⟨_, b1⟩, hm, hs⟩ := ebind_split hs
        have A : Asked (Modest n t) b b1 := .of_frames <| .mem (b := { b with frames := fs }) (lquiet_writeIn _ _ _ _ _) hm
        cases hs
        refine ⟨⟨A.kind, A.types, A.log⟩, fun q _ => ⟨⟨nd, _, _, _, rfl, ?_, fun x hx => (fillPhase_ne _ _ _ hx).elim⟩, (congrFun A.types r).trans ht, ex, ke, ot, A.kind.trans hk⟩⟩
        rw [hy, yielded_some]
        exact Nat.succ_le_succ hc
      · simp only at hs
        split at hs
        · obtain ⟨⟨_, b1⟩, hm, hs⟩ := ebind_split hs
          have A : Asked (Modest n t) b b1 := .of_frames <| .mem (b := { b with frames := fs }) (lquiet_writeIn _ _ _ _ _) hm
          cases hs
          refine ⟨⟨A.kind, A.types, A.log⟩, fun q _ => ⟨⟨nd, _, _, _, rfl, ?_, nofun⟩, (congrFun A.types r).trans ht, ex, ke, ot, A.kind.trans hk⟩⟩
          rw [hy]; omega
        · cases hs
          refine ⟨⟨rfl, rfl, [], rfl, nofun⟩, fun q _ => ⟨⟨nd, _, _, _, rfl, ?_, nofun⟩, ht, ex, ke, ot, hk⟩⟩
          rw [hy]; omega
  · split at hs
    · obtain ⟨⟨⟨a, m⟩, b2⟩, h2, hs⟩ := ebind_split hs
      cases hs
      obtain ⟨k, t, l⟩ := Asked.flush (P := Modest n t) (b := { b with frames := fs }) hk h2
      exact ⟨⟨k, t, l⟩, nofun⟩
    · rename_i v
      cases hs
      refine ⟨⟨rfl, rfl, [], rfl, nofun⟩, fun q _ => ⟨⟨nd, _, _, _, rfl, ?_, ?_⟩, ht, ex, ke, ot, hk⟩⟩
      · rw [hy]; omega
      · intro _ _
        rw [hy, yielded_some]
        exact Nat.succ_le_succ hc
  · cases hs

theorem Holding.step {tr t r b b' op resp n} (h : Holding tr t r b) (ho : op.answers) (hs : bstep b op = .ok (resp, b'))
    (ha : ∃ k, t.align = 2 ^ k) (hn : TrueLower n (tr ++ [(op, resp)])) :
    Asked (Modest n t) b b' ∧ ∀ q, resp = .wait q → Holding (tr ++ [(op, resp)]) t r b' := by
  cases op <;> try (cases ho; done)
  case hint l u => exact h.hint hs ha (hn.2 tr l u resp [] rfl)
  case next => exact h.next hs
  case nth x =>
    obtain ⟨⟨nd, g, ph, fs, hf, _⟩, _⟩ := h
    simp only [bstep, hf, BState.resume] at hs
    cases hs

theorem TrueLower.prefix {n : Nat} {tr tr' : List (BOp × BResp)} (h : TrueLower n (tr ++ tr')) : TrueLower n tr := by
  refine ⟨Nat.le_trans ?_ h.1, ?_⟩
  · rw [yielded_append]; omega
  · rintro tr1 l u q tr2 rfl
    exact h.2 tr1 l u q (tr2 ++ tr') (by simp)

/-- C87: what `from_iter` asks the allocator for is in proportion to the items the iterator has: if it has `n` and its lower bounds are true, no
request is larger than the list record and `2 * n + 15` items. The upper bounds may be wrong, and the iterator may yield items after `None`. -/
theorem C87_modest {b0 b b1 b2 b3 : BState} {bk bk1 bk2 : BBook} {e r q n} {tr : List (BOp × BResp)} {op resp exact keeps others}
    (h : BReach b0 b bk) (hk : b0.kind = .any exact keeps others) (hz : (b0.types r).size ≠ 0)
    (hs : bstep b (.fromIter e r) = .ok (.wait q, b1)) (ht : BSteps b0 b0.safe b1 bk1 tr b2 bk2) (hw : ∀ a ∈ tr, a.1.answers ∧ ∃ q, a.2 = .wait q)
    (ho : op.answers) (hs3 : bstep b2 op = .ok (resp, b3)) (hn : TrueLower n (tr ++ [(op, resp)])) :
    ∃ evs, b3.s.w.log = evs ++ b2.s.w.log ∧
      ∀ ev ∈ evs, ∀ l, ev.Asks l → l.size ≤ 24 + (b0.types r).align + (2 * n + 15) * (b0.types r).size := by
  have hal : ∃ k, (b0.types r).align = 2 ^ k := (h.1.types r).align
  suffices H : Holding tr (b0.types r) r b2 from (H.step ho hs3 hal hn).1.log
  have h0 : Holding [] (b0.types r) r b1 := by
    obtain ⟨cs, items, hwk⟩ := h.wk
    have ht : b.types = b0.types := hwk.types
    have hkk : b.kind = b0.kind := hwk.kind
    simp only [bstep, BState.start] at hs
    rw [if_neg (by rw [ht]; exact hz)] at hs
    rw [wait_eq hs]
    exact ⟨⟨_, _, _, _, rfl, Nat.zero_le _, nofun⟩, by rw [ht], _, _, _, hkk.trans hk⟩
  have hn1 := hn.prefix
  clear hs hs3 hn
  induction ht with
  | nil => exact h0
  | @snoc _ _ _ op1 resp1 _ _ _ _ hl hs1 ha ih =>
    have ih := ih (fun a hm => hw a (List.mem_append_left _ hm)) hn1.prefix
    obtain ⟨h1, q1, h2⟩ := hw (op1, resp1) (List.mem_append_right _ List.mem_cons_self)
    exact (ih.step h1 hs1 hal hn1).2 q1 h2

/-! ### The hypotheses can be met -/

/-- Decides `Fused` (used to check the examples). -/
def fusedB : List (BOp × BResp) → Bool
  | [] => true
  | (.next none, _) :: tr => decide (yielded tr = 0) && fusedB tr
  | _ :: tr => fusedB tr

theorem fusedB_sound {tr : List (BOp × BResp)} (h : fusedB tr = true) : Fused tr := by
  rintro tr1 q tr2 rfl
  induction tr1 with
  | nil =>
    simp only [List.nil_append, fusedB, Bool.and_eq_true, decide_eq_true_eq] at h
    exact h.1
  | cons a tr1 ih =>
    refine ih ?_
    rw [List.cons_append] at h
    unfold fusedB at h
    split at h
    · contradiction
    · rename_i hx
      injection hx with _ hx
      rw [← hx, Bool.and_eq_true] at h
      exact h.2
    · rename_i hx
      injection hx with _ hx
      rw [← hx] at h
      exact h

/-- Decides `TrueUpper` (used to check the examples). -/
def upperB : List (BOp × BResp) → Bool
  | [] => true
  | (.hint _ (some u), _) :: tr => decide (yielded tr ≤ u) && upperB tr
  | _ :: tr => upperB tr

theorem upperB_sound {tr : List (BOp × BResp)} (h : upperB tr = true) : TrueUpper tr := by
  rintro tr1 l u q tr2 rfl
  induction tr1 with
  | nil =>
    simp only [List.nil_append, upperB, Bool.and_eq_true, decide_eq_true_eq] at h
    exact h.1
  | cons a tr1 ih =>
    refine ih ?_
    rw [List.cons_append] at h
    unfold upperB at h
    split at h
    · contradiction
    · rename_i hx
      injection hx with _ hx
      rw [← hx, Bool.and_eq_true] at h
      exact h.2
    · rename_i hx
      injection hx with _ hx
      rw [← hx] at h
      exact h

/-- Decides `TrueLower`, after `m` items (used to check the examples). -/
def lowerB (n m : Nat) : List (BOp × BResp) → Bool
  | [] => decide (m ≤ n)
  | (.hint l _, _) :: tr => decide (m + l ≤ n) && lowerB n m tr
  | a :: tr => lowerB n (m + yielded [a]) tr

theorem lowerB_sound {n m : Nat} {tr : List (BOp × BResp)} (h : lowerB n m tr = true) :
    m + yielded tr ≤ n ∧ ∀ tr1 l u q tr2, tr = tr1 ++ (.hint l u, q) :: tr2 → m + yielded tr1 + l ≤ n := by
  induction tr generalizing m with
  | nil =>
    simp only [lowerB, decide_eq_true_eq] at h
    exact ⟨h, fun tr1 l u q tr2 he => by cases tr1 <;> cases he⟩
  | cons a tr ih =>
    have hy : yielded (a :: tr) = yielded [a] + yielded tr := yielded_append [a] tr
    unfold lowerB at h
    split at h
    · contradiction
    · rename_i l u q tr2 hx
      injection hx with hx1 hx2
      subst hx1 hx2
      simp only [Bool.and_eq_true, decide_eq_true_eq] at h
      obtain ⟨h1, h2⟩ := ih h.2
      refine ⟨by rw [hy, yielded_hint]; omega, fun tr1 l' u' q' tr2 he => ?_⟩
      cases tr1 with
      | nil => cases he; exact h.1
      | cons a' tr1 =>
        cases he
        have := h2 _ _ _ _ _ rfl
        have : yielded ((.hint l u, q) :: tr1) = 0 + yielded tr1 := yielded_append [(.hint l u, q)] tr1
        omega
    · rename_i a' tr' hno hx
      injection hx with hx1 hx2
      subst hx1 hx2
      obtain ⟨h1, h2⟩ := ih h
      refine ⟨by rw [hy]; omega, fun tr1 l' u' q' tr2 he => ?_⟩
      cases tr1 with
      | nil => cases he; exact (hno _ _ _ rfl).elim
      | cons a' tr1 =>
        cases he
        have := h2 _ _ _ _ _ rfl
        have : yielded (a :: tr1) = yielded [a] + yielded tr1 := yielded_append [a] tr1
        omega

/-- `k` items. -/
def itemOps (k : Nat) : List BOp := (List.range k).map fun j => .next (some (j + 1))

/-- An iterator of 36 items that promises no lower bound. -/
def growOps : List BOp :=
  [.hint 0 (some 40)] ++ itemOps 1 ++ [.hint 0 (some 39)] ++ itemOps 17 ++ [.hint 0 none] ++ itemOps 18 ++ [.hint 0 (some 4), .next none]

/-- The hypotheses of C87 are met, and the bound is attained: four hints for 36 items. -/
example : ∃ b0 b b1 b2 bk bk1 bk2 q tr, BReach b0 b bk ∧ (b0.types 4).size ≠ 0 ∧
    bstep b (.fromIter .noDrop 4) = .ok (.wait q, b1) ∧
    BSteps b0 b0.safe b1 bk1 tr b2 bk2 ∧ (∀ a ∈ tr, a.1.answers ∧ ∃ q, a.2 = .wait q) ∧ Fused tr ∧ TrueUpper tr ∧ hints tr = 4 ∧
    yielded tr = 36 ∧ bk.refs.length = 2 := by
  obtain ⟨b, bk, r, b1, bk1, h1, h2, h3, h4, h5, h6⟩ := of_bdemoAt (bdemo_start [512, 2048, 4096] .owned [] true)
    (ops := bdemoOps.take 2) (op := .fromIter .noDrop 4) (f := fun _ bk r b1 bk1 => match r with
      | .wait _ => match bexecAll (bdemo [512, 2048, 4096] .owned [] true) true b1 bk1 growOps with
        | some (tr, _, _) => tr.all isAnswerB && decide (fusedB tr = true ∧ upperB tr = true ∧ hints tr = 4 ∧ yielded tr = 36 ∧ bk.refs.length = 2)
        | none => false
      | _ => false) (by decide +kernel)
  split at h6
  · rename_i q
    split at h6
    · rename_i tr b2 bk2 h7
      rw [Bool.and_eq_true, decide_eq_true_eq, List.all_eq_true] at h6
      obtain ⟨g1, g2, g3, g4⟩ := h6
      exact ⟨_, b, b1, b2, bk, bk1, bk2, q, tr, h1, by decide, h4, bexecAll_sound h7, fun a ha => isAnswerB_sound (g1 a ha), fusedB_sound g2, upperB_sound g3, g4⟩
    · cases h6
  · cases h6

/-- The first ten of 36 items; the upper bound is wrong. -/
def modestOps : List BOp := [.hint 9 (some 2)] ++ itemOps 10

/-- The hypotheses of C87 are met where the buffer has to grow: for 36 items of 12 bytes with destructors. -/
example : ∃ b0 b b1 b2 b3 bk bk1 bk2 q tr resp exact keeps others l s p l', BReach b0 b bk ∧ b0.kind = .any exact keeps others ∧
    (b0.types 0).size ≠ 0 ∧ bstep b (.fromIter .emplace 0) = .ok (.wait q, b1) ∧ BSteps b0 b0.safe b1 bk1 tr b2 bk2 ∧
    (∀ a ∈ tr, a.1.answers ∧ ∃ q, a.2 = .wait q) ∧ bstep b2 (.hint 26 (some 1)) = .ok (resp, b3) ∧
    TrueLower 36 (tr ++ [(.hint 26 (some 1), resp)]) ∧ b3.s.w.log = [.alloc l s, .dealloc p l'] ++ b2.s.w.log ∧ l.size = 24 + 36 * 12 := by
  obtain ⟨b, bk, r, b1, bk1, h1, h2, h3, h4, h5, h6⟩ := of_bdemoAt (anyDemo_start [512, 2048, 4096, 4096] true true)
    (ops := [.value .emplace 0 ⟨12, 4⟩ 5]) (op := .fromIter .emplace 0) (f := fun _ bk r b1 bk1 => match r with
      | .wait _ => match bexecAll (anyDemo [512, 2048, 4096, 4096] true true) true b1 bk1 modestOps with
        | some (tr, b2, _) => match bstep b2 (.hint 26 (some 1)) with
          | .ok (resp, b3) => tr.all isAnswerB && lowerB 36 0 (tr ++ [(.hint 26 (some 1), resp)]) && (match b3.s.w.log with
            | .alloc l _ :: .dealloc _ _ :: log => decide (log = b2.s.w.log ∧ l.size = 24 + 36 * 12)
            | _ => false)
          | _ => false
        | none => false
      | _ => false) (by decide +kernel)
  split at h6
  · rename_i q
    split at h6
    · rename_i tr b2 bk2 h7
      split at h6
      · rename_i resp b3 h8
        rw [Bool.and_eq_true, Bool.and_eq_true, List.all_eq_true] at h6
        obtain ⟨⟨g1, g2⟩, g3⟩ := h6
        split at g3
        · rename_i l s p l' log hlog
          rw [decide_eq_true_eq] at g3
          have hl := lowerB_sound g2
          simp only [Nat.zero_add] at hl
          exact ⟨_, b, b1, b2, b3, bk, bk1, bk2, q, tr, resp, _, _, _, l, s, p, l', h1, rfl, by decide, h4, bexecAll_sound h7, fun a ha => isAnswerB_sound (g1 a ha), h8, hl, by rw [hlog, g3.1]; rfl, g3.2⟩
        · cases g3
      · cases h6
    · cases h6
  · cases h6

end Blink
