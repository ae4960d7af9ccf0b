import Verif.Proofs.ProxyZeroContract
import Verif.Spec.ProxyZeroExec
/-
  C94: what the callers of a proxy see, `allocate_zeroed` and `grow_zeroed` included, is what the documentation of `Allocator` promises.
-/
namespace Blink

/-- C94: the calls of a proxy of a `SyncBlinkAlloc` that came back, zeroed calls among them, whatever other threads do at the shared allocator and
at other proxies in the meantime, are together with some stores of their callers a history the documentation of `Allocator` allows. -/
theorem C94_proxy {p0 z V tr} (h0 : PStart p0) (h : ZPRun (ZPS.start p0) ZPBook.empty tr z V) (i : Nat) :
    ∃ m tr' σ, AbsRun ⟨[], m⟩ tr' σ ∧ callsIn tr' = (zpview i tr).done := by
  obtain ⟨m, tr', σ, h1, h2, _⟩ := (h.sim h0 i).sim
  exact ⟨m, tr', σ, h1, h2⟩

/-- C94: and as long as the proxy exists and is not in the middle of a reset, its callers hold the blocks that history leaves them with, and find
in them what it put there. -/
theorem C94_proxy_state {p0 z V tr} (h0 : PStart p0) (h : ZPRun (ZPS.start p0) ZPBook.empty tr z V) {i : Nat} (hl : V.k.live i = true)
    (hw : (zpview i tr).wait ≠ some .reset) :
    ∃ m tr' σ, AbsRun ⟨[], m⟩ tr' σ ∧ callsIn tr' = (zpview i tr).done ∧ σ.owned.Perm (V.blocks i) ∧ SameOn σ.owned z.p.s.w.mem σ.mem := by
  obtain ⟨m, tr', σ, h1, h2, h3⟩ := (h.sim h0 i).sim
  exact ⟨m, tr', σ, h1, h2, h3 hl hw⟩

/-! ### The hypotheses are met -/

/-- The check `f` of trace, state and book after the actions. -/
def zpdemoTr (sizes : List Nat) (m : Nat) (as : List ZPAct) (f : List (ZPAct × Option Resp) → ZPS → ZPBook → Bool) : Bool :=
  match zpexecAll (ZPS.start (pdemoStart sizes m)) ZPBook.empty as with
  | none => false
  | some (tr, z, V) => f tr z V

theorem of_zpdemoTr {sizes : List Nat} {m : Nat} {as : List ZPAct} {f} (h : zpdemoTr sizes m as f = true) (hm : 0 < m ∧ m ≤ HUGE := by decide) :
    ∃ tr z V, PStart (pdemoStart sizes m) ∧ ZPRun (ZPS.start (pdemoStart sizes m)) ZPBook.empty tr z V ∧ f tr z V = true := by
  unfold zpdemoTr at h
  split at h
  · cases h
  · rename_i tr z V he
    exact ⟨tr, z, V, pdemoStart_start sizes m hm, zpexecAll_sound he, h⟩

/-- Proxy 0 has returned ten zeroed bytes and moved them to a block of forty; proxy 1 has returned its five and is asked for more. -/
example : ∃ p0 z V tr, PStart p0 ∧ ZPRun (ZPS.start p0) ZPBook.empty tr z V ∧ V.k.live 0 = true ∧ V.k.live 1 = true ∧
    (zpview 0 tr).done = [(.allocateZeroed ⟨10, 8⟩, .block ⟨65600, 10⟩), (.growZeroed 65600 ⟨10, 8⟩ ⟨40, 8⟩, .block ⟨65728, 40⟩)] ∧
    (zpview 1 tr).done = [(.allocateZeroed ⟨5, 1⟩, .block ⟨65664, 5⟩)] ∧ (zpview 1 tr).wait = some (.allocateZeroed ⟨3, 1⟩) ∧
    V.blocks 0 = [⟨65728, 40, 40, 8⟩] ∧ z.p.s.w.mem 65730 = .raw 9 := by
  have hd : zpdemoTr [4096, 8192] 1024 (zpdemoPre ++ [.zcall 0 (.growZeroed 65600 ⟨10, 8⟩ ⟨40, 8⟩)] ++ zpdemoMid ++
      [.zgo 0, .zgo 1, .zcall 1 (.zeroed ⟨3, 1⟩)]) (fun tr z V => V.k.live 0 && V.k.live 1 &&
      decide ((zpview 0 tr).done = [(.allocateZeroed ⟨10, 8⟩, .block ⟨65600, 10⟩), (.growZeroed 65600 ⟨10, 8⟩ ⟨40, 8⟩, .block ⟨65728, 40⟩)]) &&
      decide ((zpview 1 tr).done = [(.allocateZeroed ⟨5, 1⟩, .block ⟨65664, 5⟩)]) && decide ((zpview 1 tr).wait = some (.allocateZeroed ⟨3, 1⟩)) &&
      decide (V.blocks 0 = [⟨65728, 40, 40, 8⟩]) && decide (z.p.s.w.mem 65730 = .raw 9)) = true := by decide +kernel
  obtain ⟨tr, z, V, h0, h, hf⟩ := of_zpdemoTr hd
  simp only [Bool.and_eq_true, decide_eq_true_eq] at hf
  obtain ⟨⟨⟨⟨⟨⟨h1, h2⟩, h3⟩, h4⟩, h5⟩, h6⟩, h7⟩ := hf
  exact ⟨_, z, V, tr, h0, h, h1, h2, h3, h4, h5, h6, h7⟩

end Blink
