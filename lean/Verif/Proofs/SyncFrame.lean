import Verif.Proofs.SyncProg
import Verif.Proofs.Global
/-
  More about one step of one thread of a `SyncBlinkAlloc`: what is left alone, what a call that returns leaves behind, and changes from
  outside.
-/
namespace Blink

theorem Fam.perm {cs owned owned' B} (h : Fam cs owned B) (hp : owned.Perm owned') : Fam cs owned' B := by
  obtain ⟨ts, h1, h2, h3⟩ := h
  exact ⟨ts, h1, h2, h3.perm (hp.append_right _)⟩

theorem SInv.perm {s0 s cs K B} (h : SInv s0 s cs K B) {L : List Owned} (hp : K.owned.Perm L) :
    SInv s0 s cs { K with owned := L } B :=
  { h with fam := h.fam.perm hp, thr := h.thr }

theorem SInv.trim {s0 s cs K B} {o o' : Owned} {L : List Owned} (h : SInv s0 s cs K B) (he : K.owned = o :: L)
    (h1 : o'.addr = o.addr) (h2 : o'.size = o.size) (h3 : o'.align = o.align) (h4 : o'.size ≤ o'.len) (h5 : o'.len ≤ o.len) :
    SInv s0 s cs { K with owned := o' :: L } B := by
  obtain ⟨ts, a1, a2, a3⟩ := h.fam
  rw [he, List.cons_append] at a3
  exact { h with fam := ⟨ts, a1, a2, by rw [List.cons_append]; exact a3.trim h1 h2 h3 h4 h5⟩, thr := h.thr }

/-- Well placed blocks of the threads. -/
theorem SInv.thr_lok {s0 s cs K B} (h : SInv s0 s cs K B) (t : Nat) : LOK cs (B t) := by
  obtain ⟨R, hR, _, _⟩ := h.fam.focus t
  exact hR.sublist (.trans (List.sublist_append_left _ _) (List.sublist_append_right _ _))

/-- Changes from outside that leave the bytes in use alone. -/
theorem SInv.rebase {s0 s cs K B} (h : SInv s0 s cs K B) {s0' : SS} {w' : World} (hA : AInv w' cs s0'.w.held)
    (hm : ∀ x, InUsed cs x 1 → w'.mem x = s.w.mem x) (hd : w'.debug = s.w.debug) (ht : w'.top = s.w.top)
    (ho : w'.oracle = s.w.oracle) (hl : w'.log = s.w.log) (h1 : s0'.minChunk = s0.minChunk) (h2 : s0'.w.oracle = s0.w.oracle)
    (h3 : s0'.w.top = s0.w.top) : SInv s0' { s with w := w' } cs K B where
  arena := hA
  root := h.root
  min := h.min.trans h1.symm
  dbg := h.dbg.of_eq hd ht
  oracle := ho.trans (h.oracle.trans h2.symm)
  top := ht.trans (h.top.trans h3.symm)
  log := by dsimp only; rw [hl]; exact h.log
  seen := h.seen
  fam := h.fam
  lock := h.lock
  thr := fun t => (h.thr t).frame (fun _ hb _ hx => hm _ ((h.thr_lok t).byte hb hx)) (fun _ hb => ((h.thr_lok t).each _ hb).1)

/-- A step changes no byte outside the chunks. -/
theorem SInv.go_out {s0 s cs K B} (h : SInv s0 s cs K B) {t : Nat} {ch : Choice} {r s'} (hgo : goStep s t ch = .ok (some (r, s')))
    {cs' K' B'} (h' : SInv s0 s' cs' K' B') {x : Nat} (hx : ∀ c ∈ cs, x < c.start ∨ c.end_ ≤ x)
    (hx' : ∀ c ∈ cs', x < c.start ∨ c.end_ ≤ x) : s'.w.mem x = s.w.mem x := by
  have hcur : ∀ {c tl n}, cs = c :: tl → (setCursor s.w c n).mem x = s.w.mem x := by
    intro c tl n hc
    have := hx c (by rw [hc]; exact List.mem_cons_self)
    have hk := h.arena.ok c (by rw [hc]; exact List.mem_cons_self)
    have := hk.lo; have := hk.hi
    simp only [setCursor]
    exact setBytes_out (by omega)
  have hslow : ∀ {j o root w'}, s.pcs t = .slow j → allocSlow s.root s.minChunk j.layout s.w = .ok ((o, root), w') → s'.w = w' →
      w'.mem x = s.w.mem x := by
    intro j o root w' hpc he hw
    have hj : j.layout.Valid := by
      have := h.thr t
      rw [hpc] at this
      generalize K.busy t = bz at this
      cases this with
      | slow hj => exact hj.valid
    rw [h.root] at he
    rcases allocSlow_spec h.arena hj h.dbg with ⟨e, _, he'⟩ | ⟨r, w1, cs1, he', hr, hi⟩
    · rw [he'] at he; cases he
    · rw [he'] at he
      cases he
      have : cs' = cs1 :=
        cs_unique (m := w'.mem) (log := w'.log) (hw ▸ h'.log) (hr.log h.log) (hw ▸ h'.arena.rep) hi.rep h'.arena.ok hi.ok
      subst this
      cases hr with
      | tooBig => rfl
      | refused => rfl
      | ok R sl m' _ _ _ _ hm _ => exact hm x (hx' _ List.mem_cons_self)
  cases h.go_res hgo with
  | commit hpc hcs => exact hcur hcs
  | rcommit hpc hcs => exact hcur hcs
  | slowErr hpc he => exact hslow hpc he rfl
  | slowOk hpc he => exact hslow hpc he rfl
  | copy hpc hk hu1 hu2 =>
    obtain ⟨c, hc, h1, h2⟩ := hu2
    have := hx c hc
    have hk := h.arena.ok c hc
    have := hk.lo; have := hk.hi
    exact setBytes_out (m := s.w.mem) (f := fun _ => s.w.mem (_ + _)) (by omega)
  | _ => rfl

/-- A step does not change the build. -/
theorem SInv.go_debug {s0 s cs K B} (h : SInv s0 s cs K B) {t : Nat} {ch : Choice} {r s'} (hgo : goStep s t ch = .ok (some (r, s'))) :
    s'.w.debug = s.w.debug := by
  have hslow : ∀ {j o root w'}, s.pcs t = .slow j → allocSlow s.root s.minChunk j.layout s.w = .ok ((o, root), w') →
      w'.debug = s.w.debug := by
    intro j o root w' hpc he
    have hj : j.layout.Valid := by
      have := h.thr t
      rw [hpc] at this
      generalize K.busy t = bz at this
      cases this with
      | slow hj => exact hj.valid
    rw [h.root] at he
    rcases allocSlow_spec h.arena hj h.dbg with ⟨e, _, he'⟩ | ⟨r, w1, cs1, he', hr, hi⟩
    · rw [he'] at he; cases he
    · rw [he'] at he
      cases he
      cases hr <;> rfl
  cases h.go_res hgo with
  | slowErr hpc he => exact hslow hpc he
  | slowOk hpc he => exact hslow hpc he
  | _ => rfl

/-- What a call that returns leaves behind. -/
inductive RetOK (m sn : Nat → Byte) : Call → Option Owned → Resp → Prop
  | allocOk {l b} : RetOK m sn (.allocate l) none (.block b)
  | allocErr {l} : RetOK m sn (.allocate l) none .err
  | resizeOk {p old new b s} (hc : ∀ i, i < min new.size old.size → m (s.addr + i) = sn (p + i)) :
      RetOK m sn (.resize p old new) (some b) (.block s)
  | resizeErr {p old new b} (hs : ∀ x, b.Has x → m x = sn x) : RetOK m sn (.resize p old new) (some b) .err
  | dealloc {p n b} : RetOK m sn (.deallocate p n) (some b) .unit

theorem SInv.ret_ok {s0 s cs K B} (h : SInv s0 s cs K B) {t : Nat} {ch : Choice} {s' : SS} {r : Resp}
    (hgo : goStep s t ch = .ok (some (some r, s'))) {c ob} (hb : K.busy t = some (c, ob)) :
    RetOK s.w.mem (K.snap t) c ob r ∧ s'.w = s.w := by
  have key : ∀ wr, s.pcs t = .ret wr r → RetOK s.w.mem (K.snap t) c ob r := by
    intro wr hpc
    have ht := h.thr t
    rw [hpc, hb] at ht
    generalize B t = bt at ht
    cases ht with
    | retAllocOk => exact .allocOk
    | retAllocErr => exact .allocErr
    | retResizeOk hc => exact .resizeOk hc
    | retResizeErr j => cases j with | resize _ _ hs => exact .resizeErr hs
    | retDealloc => exact .dealloc
  cases h.go_res hgo with
  | retW hpc => exact ⟨key _ hpc, rfl⟩
  | retR hpc => exact ⟨key _ hpc, rfl⟩

end Blink
