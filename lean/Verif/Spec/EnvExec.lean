import Verif.Spec.Env
import Verif.Spec.ProxyExec
/-
  Executable histories with other users of the underlying allocator, for examples only.
-/
namespace Blink

/-- Somebody else obtains a block, gives one back or stores into one; afterwards its bytes are `v`. Or they ask, and use up an answer. -/
inductive EnvAct where
  | take (b : BaseBlk) (v : Byte)
  | give (b : BaseBlk) (v : Byte)
  | write (b : BaseBlk) (v : Byte)
  | ask

def fillBlk (m : Nat → Byte) (b : BaseBlk) (v : Byte) : Nat → Byte := fun x => if b.addr ≤ x ∧ x < b.addr + b.len then v else m x

theorem fillBlk_out {m b v} : ∀ x, ¬ b.Holds x → fillBlk m b v x = m x := fun _ h => if_neg h

def envExec (O : List BaseBlk) (w : World) : EnvAct → Option (List BaseBlk × World)
  | .take b v =>
    if 0 < b.addr ∧ b.addr + b.len < w.top ∧ ∀ c ∈ w.held, b.len = 0 ∨ c.len = 0 ∨ b.addr + b.len ≤ c.addr ∨ c.addr + c.len ≤ b.addr then
      some (b :: O, { w with held := b :: w.held, mem := fillBlk w.mem b v })
    else none
  | .give b v => if b ∈ O then some (O.erase b, { w with held := w.held.erase b, mem := fillBlk w.mem b v }) else none
  | .write b v => if b ∈ O then some (O, { w with mem := fillBlk w.mem b v }) else none
  | .ask => some (O, { w with calls := w.calls + 1 })

theorem envExec_sound {O w a O' w'} (h : envExec O w a = some (O', w')) : EnvStep O w O' w' := by
  cases a with
  | take b v =>
    simp only [envExec] at h
    split at h
    · rename_i hc
      cases h
      exact .take hc.1 hc.2.1 hc.2.2 fillBlk_out
    · cases h
  | give b v =>
    simp only [envExec] at h
    split at h
    · rename_i hc
      cases h
      exact .give hc fillBlk_out
    · cases h
  | write b v =>
    simp only [envExec] at h
    split at h
    · rename_i hc
      cases h
      exact .write hc fillBlk_out
    · cases h
  | ask => cases h; exact .ask

/-- Calls of the allocator and steps of others. -/
def eexecAll (s : St) (L : List Owned) (O : List BaseBlk) : List (Op ⊕ EnvAct) → Option (List (Op × Resp) × St × List Owned × List BaseBlk)
  | [] => some ([], s, L, O)
  | .inl op :: as =>
    match exec1 s L op with
    | none => none
    | some (r, s', L') => (eexecAll s' L' O as).map fun p => ((op, r) :: p.1, p.2)
  | .inr a :: as =>
    match envExec O s.w a with
    | none => none
    | some (O', w') => eexecAll { s with w := w' } L O' as

theorem eexecAll_sound {s0 tr0 s L O} (h0 : ERun s0 tr0 s L O) {as tr s' L' O'} (h : eexecAll s L O as = some (tr, s', L', O')) :
    ERun s0 (tr0 ++ tr) s' L' O' := by
  induction as generalizing tr0 s L O tr with
  | nil =>
    simp only [eexecAll, Option.some.injEq, Prod.mk.injEq] at h
    obtain ⟨rfl, rfl, rfl, rfl⟩ := h
    rw [List.append_nil]
    exact h0
  | cons a as ih =>
    cases a with
    | inl op =>
      simp only [eexecAll] at h
      split at h
      · cases h
      rename_i r s1 L1 h1
      rw [Option.map_eq_some_iff] at h
      obtain ⟨⟨tr1, p⟩, h2, h3⟩ := h
      cases h3
      obtain ⟨a1, a2, a3⟩ := exec1_sound h1
      have := ih (h0.snoc a1 a2 a3) h2
      rwa [List.append_assoc] at this
    | inr a =>
      simp only [eexecAll] at h
      split at h
      · cases h
      rename_i O1 w1 h1
      exact ih (h0.env (envExec_sound h1)) h

def esexecAll (s : SS) (K : Book) (O : List BaseBlk) : List (Act ⊕ EnvAct) → Option (List (Act × Option Resp) × SS × Book × List BaseBlk)
  | [] => some ([], s, K, O)
  | .inl a :: as =>
    match sexec1 s K a with
    | none => none
    | some (r, s', K') => (esexecAll s' K' O as).map fun p => ((a, r) :: p.1, p.2)
  | .inr a :: as =>
    match envExec O s.w a with
    | none => none
    | some (O', w') => esexecAll { s with w := w' } K O' as

theorem esexecAll_sound {s0 tr0 s K O} (h0 : ESRun s0 tr0 s K O) {as tr s' K' O'} (h : esexecAll s K O as = some (tr, s', K', O')) :
    ESRun s0 (tr0 ++ tr) s' K' O' := by
  induction as generalizing tr0 s K O tr with
  | nil =>
    simp only [esexecAll, Option.some.injEq, Prod.mk.injEq] at h
    obtain ⟨rfl, rfl, rfl, rfl⟩ := h
    rw [List.append_nil]
    exact h0
  | cons a as ih =>
    cases a with
    | inl op =>
      simp only [esexecAll] at h
      split at h
      · cases h
      rename_i r s1 L1 h1
      rw [Option.map_eq_some_iff] at h
      obtain ⟨⟨tr1, p⟩, h2, h3⟩ := h
      cases h3
      obtain ⟨a1, a2, a3⟩ := sexec1_sound h1
      have := ih (h0.snoc a1 a2 a3) h2
      rwa [List.append_assoc] at this
    | inr a =>
      simp only [esexecAll] at h
      split at h
      · cases h
      rename_i O1 w1 h1
      exact ih (h0.env (envExec_sound h1)) h

def epexecAll (ps : PS) (K : PBook) (O : List BaseBlk) : List (PAct ⊕ EnvAct) → Option (List (PAct × Option Resp) × PS × PBook × List BaseBlk)
  | [] => some ([], ps, K, O)
  | .inl a :: as =>
    match pstep ps a with
    | .ok (some (r, ps')) =>
      match pbook ps.s.w.mem K a r with
      | none => none
      | some K' => (epexecAll ps' K' O as).map fun p => ((a, r) :: p.1, p.2)
    | _ => none
  | .inr a :: as =>
    match envExec O ps.s.w a with
    | none => none
    | some (O', w') => epexecAll { ps with s := { ps.s with w := w' } } K O' as

theorem epexecAll_sound {s0 tr0 s K O} (h0 : EPRun s0 tr0 s K O) {as tr s' K' O'} (h : epexecAll s K O as = some (tr, s', K', O')) :
    EPRun s0 (tr0 ++ tr) s' K' O' := by
  induction as generalizing tr0 s K O tr with
  | nil =>
    simp only [epexecAll, Option.some.injEq, Prod.mk.injEq] at h
    obtain ⟨rfl, rfl, rfl, rfl⟩ := h
    rw [List.append_nil]
    exact h0
  | cons a as ih =>
    cases a with
    | inl op =>
      simp only [epexecAll] at h
      split at h
      case h_2 => cases h
      rename_i r s1 hs
      split at h
      · cases h
      rename_i K1 h1
      rw [Option.map_eq_some_iff] at h
      obtain ⟨⟨tr1, p⟩, h2, h3⟩ := h
      cases h3
      obtain ⟨a1, a2⟩ := pbook_sound h1
      have := ih (h0.snoc a1 hs a2) h2
      rwa [List.append_assoc] at this
    | inr a =>
      simp only [epexecAll] at h
      split at h
      · cases h
      rename_i O1 w1 h1
      exact ih (h0.env (envExec_sound h1)) h

end Blink
