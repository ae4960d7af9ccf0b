import Verif.Spec.Cache
/-
  An executable version of cache histories, sound with respect to `CRun`. Only used to show that concrete, non-trivial cases
  meet the hypotheses of the property theorems.
-/
namespace Blink

/-- Check legality, make the step, update the book. -/
def cexec1 (T : Nat) (s : CS) (K : CBook) (a : CAct) : Option (Option CRet × CS × CBook) :=
  match cstep s a with
  | .ok (some (r, s')) =>
    match a, r with
    | .call t .pop, none =>
      if t < T ∧ K.busy t = none then some (r, s', { K with busy := put K.busy t (some .pop) }) else none
    | .call t (.push b), none =>
      if t < T ∧ K.busy t = none ∧ b ∈ K.out then
        some (r, s', { out := K.out.erase b, busy := put K.busy t (some (.push b)) }) else none
    | .go _, none => some (r, s', K)
    | .go t, some .unit => some (r, s', { K with busy := put K.busy t none })
    | .go t, some (.got none) => some (r, s', { K with busy := put K.busy t none })
    | .go t, some (.got (some b)) => some (r, s', { out := b :: K.out, busy := put K.busy t none })
    | _, _ => none
  | _ => none

theorem cexec1_sound {T s K a r s' K'} (h : cexec1 T s K a = some (r, s', K')) :
    CLegal T K a ∧ cstep s a = .ok (some (r, s')) ∧ CAfter K a r K' := by
  unfold cexec1 at h
  split at h
  case h_2 => cases h
  rename_i r1 s1 hs
  rw [hs]
  split at h <;> (repeat' (first | split at h | cases h))
  all_goals first
    | (rename_i h1; exact ⟨.pop h1.1 h1.2, rfl, .pop⟩)
    | (rename_i h1; exact ⟨.push h1.1 h1.2.1 h1.2.2, rfl, .push⟩)
    | exact ⟨.go, rfl, .inside⟩
    | exact ⟨.go, rfl, .done⟩
    | exact ⟨.go, rfl, .empty⟩
    | exact ⟨.go, rfl, .got⟩

/-- Run a list of actions. -/
def cexecAll (T : Nat) (s : CS) (K : CBook) : List CAct → Option (List (CAct × Option CRet) × CS × CBook)
  | [] => some ([], s, K)
  | a :: as =>
    match cexec1 T s K a with
    | none => none
    | some (r, s', K') =>
      match cexecAll T s' K' as with
      | none => none
      | some (tr, s'', K'') => some ((a, r) :: tr, s'', K'')

theorem cexecAll_sound {T U tr0 s K as tr s' K'} (h0 : CRun T U tr0 s K) (h : cexecAll T s K as = some (tr, s', K')) :
    CRun T U (tr0 ++ tr) s' K' := by
  induction as generalizing s K tr0 tr with
  | nil =>
    simp only [cexecAll, Option.some.injEq, Prod.mk.injEq] at h
    obtain ⟨rfl, rfl, rfl⟩ := h
    simpa using h0
  | cons a as ih =>
    unfold cexecAll at h
    split at h
    · cases h
    rename_i r s1 K1 h1
    split at h
    · cases h
    rename_i rs1 s2 K2 h2
    simp only [Option.some.injEq, Prod.mk.injEq] at h
    obtain ⟨rfl, rfl, rfl⟩ := h
    obtain ⟨a1, a2, a3⟩ := cexec1_sound h1
    have := ih (h0.snoc a1 a2 a3) h2
    simpa using this

/-- Check a decidable fact about a concrete run of the empty cache. -/
def cdemoAt (T : Nat) (U : List Nat) (as : List CAct) (f : List (CAct × Option CRet) → CS → CBook → Bool) : Bool :=
  match cexecAll T CS.new ⟨U, fun _ => none⟩ as with
  | none => false
  | some (tr, s, K) => f tr s K

theorem of_cdemoAt {T U as f} (h : cdemoAt T U as f = true) : ∃ tr s K, CRun T U tr s K ∧ f tr s K = true := by
  unfold cdemoAt at h
  split at h
  · cases h
  rename_i tr s K h1
  exact ⟨tr, s, K, by simpa using cexecAll_sound .nil h1, h⟩

/-- Thread `t` makes `n` steps. -/
def cgoes (t n : Nat) : List CAct := List.replicate n (.go t)

end Blink
