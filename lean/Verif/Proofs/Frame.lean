import Verif.Proofs.Step
/-
  What calls of a client leave alone: its other blocks, and the memory of others.
-/
namespace Blink

theorem ebind_ok' {α β} {x : Except Fault α} {a : α} {f : α → Except Fault β} (h : x = .ok a) : (x >>= f) = f a := by
  rw [h]; rfl

theorem ebind_err' {α β} {x : Except Fault α} {e : Fault} {f : α → Except Fault β} (h : x = .error e) :
    (x >>= f) = .error e := by
  rw [h]; rfl

theorem ebind_split {α β : Type} {x : Except Fault α} {f : α → Except Fault β} {y : β} (h : x >>= f = .ok y) :
    ∃ a, x = .ok a ∧ f a = .ok y := by
  cases x with
  | error e => cases h
  | ok a => exact ⟨a, rfl, h⟩

/-- Memory of other holders is apart from the chunks. -/
theorem AInv.foreign {w cs F} (h : AInv w cs F) {f : BaseBlk} (hf : f ∈ F) {c : Chunk} (hc : c ∈ cs) :
    f.len = 0 ∨ f.addr + f.len ≤ c.start ∨ c.end_ ≤ f.addr := by
  have hp := h.pairwise
  rw [List.pairwise_append] at hp
  have h1 := hp.2.2 c.blk (List.mem_map_of_mem hc) f hf
  have hk := h.ok c hc
  have := hk.lo; have := hk.hi
  unfold BaseBlk.Disjoint Chunk.blk at h1
  simp only at h1
  omega

/-! ### Allocator calls of a client owning the blocks `L` -/

theorem Inv.perm {s0 s cs L L'} (h : Inv s0 s cs L) (hp : L.Perm L') : Inv s0 s cs L' :=
  { h with led := h.led.perm hp }

theorem LOK.sublist {cs L L'} (h : LOK cs L) (hs : L'.Sublist L) : LOK cs L' :=
  ⟨fun b hb => h.each b (hs.subset hb), h.apart.sublist hs⟩

theorem Inv.sublist {s0 s cs L L'} (h : Inv s0 s cs L) (hs : L'.Sublist L) : Inv s0 s cs L' :=
  { h with led := h.led.sublist hs }

/-- The bytes of the blocks `L` are the same in both memories. -/
def Keep (L : List Owned) (m m' : Nat → Byte) : Prop := ∀ o ∈ L, ∀ x, o.Has x → m' x = m x

theorem Keep.refl (L : List Owned) (m : Nat → Byte) : Keep L m m := fun _ _ _ _ => rfl

theorem Keep.trans {L : List Owned} {m m1 m2 : Nat → Byte} (h1 : Keep L m m1) (h2 : Keep L m1 m2) : Keep L m m2 :=
  fun o ho x hx => (h2 o ho x hx).trans (h1 o ho x hx)

theorem Keep.sub {L L' : List Owned} {m m' : Nat → Byte} (h : Keep L m m') (hs : ∀ o ∈ L', o ∈ L) : Keep L' m m' :=
  fun o ho => h o (hs o ho)

/-- Legal calls other than resets and owners' writes leave all owned bytes alone. -/
theorem Inv.keep {s0 s cs L s'} (h : Inv s0 s cs L) {op : Op} {r : Resp} (hl : Legal L op)
    (hs : Blink.step s op = .ok (r, s')) (hop : op ≠ .reset ∧ op ≠ .resetFinal ∧ ∀ x v, op ≠ .write x v) :
    Keep L s.w.mem s'.w.mem := by
  intro b hb x hx
  have hI := h
  have hu := hI.led.byte hb hx
  rcases hI.step hl with ⟨e, _, he⟩ | ⟨r1, s1, cs1, he, hr, _⟩
  · rw [he] at hs; cases hs
  rw [he] at hs
  injection hs with hs
  injection hs with h1 h2
  subst h1; subst h2
  cases op with
  | allocate l => obtain ⟨o, _, hr⟩ := hr; exact hr.frame_used hI.arena hu
  | allocateZeroed l =>
    obtain ⟨o, w1, _, hr, hw⟩ := hr
    cases hl with
    | allocateZeroed hv =>
      cases o with
      | none => rw [hw]; exact hr.frame_used hI.arena hu
      | some sl =>
        simp only at hw
        have hf := hr.fresh hI.arena hv
        have := hf.2.2.2 _ _ hu
        rw [hw]
        simp only
        rw [setBytes_out (by omega)]
        exact hr.frame_used hI.arena hu
  | resize p old new =>
    obtain ⟨o, _, hr⟩ := hr
    cases hl with
    | resize _ _ hv => exact hr.frame hI.arena hv hu
  | growZeroed p old new =>
    obtain ⟨o, w1, _, hr, hw⟩ := hr
    cases hl with
    | growZeroed _ _ hv hsz =>
      cases o with
      | none => rw [hw]; exact hr.frame_used hI.arena hu
      | some sl =>
        simp only at hw
        have hf := hr.fresh hI.arena hv
        have := hf.2.2.2 _ _ hu
        have := hf.1
        rw [hw]
        simp only
        rw [setBytes_out (by omega), setBytes_out (by omega)]
        exact hr.frame_used hI.arena hu
  | deallocate p n => obtain ⟨_, hw, _⟩ := hr; rw [hw]
  | reset => exact absurd rfl hop.1
  | resetFinal => exact absurd rfl hop.2.1
  | write x v => exact absurd rfl (hop.2.2 x v)

/-- Nobody changes whether debug assertions are on. -/
theorem Inv.step_dbg {s0 s cs L s'} (h : Inv s0 s cs L) {op : Op} {r : Resp} (hl : Legal L op)
    (hs : Blink.step s op = .ok (r, s')) : s'.w.debug = s.w.debug := by
  rcases h.step hl with ⟨e, _, he⟩ | ⟨r1, s1, cs1, he, hr, _⟩
  · rw [he] at hs; cases hs
  rw [he] at hs
  injection hs with hs
  injection hs with h1 h2
  subst h2
  exact hr.consts.1

theorem Inv.allocate {s0 s cs L} (h : Inv s0 s cs L) {l : Layout} (hl : l.Valid) :
    (∃ e, BadAnswer s.w e ∧ Blink.step s (.allocate l) = .error e) ∨
    ∃ o s' cs', Blink.step s (.allocate l) = .ok (Resp.ofOption o, s') ∧ s'.w.debug = s.w.debug ∧ Keep L s.w.mem s'.w.mem ∧
      (o = none → Inv s0 s' cs' L) ∧ (∀ blk, o = some blk → Inv s0 s' cs' (Owned.of blk l :: L) ∧ blk.len = l.size) := by
  rcases h.step (.allocate hl) with he | ⟨r, s', cs', he, ⟨o, ho, hr⟩, hi⟩
  · exact .inl he
  · right
    subst ho
    refine ⟨o, s', cs', he, hr.consts.1, h.keep (.allocate hl) he (by simp), ?_, ?_⟩
    · rintro rfl; exact hi _ .allocErr
    · rintro blk rfl; exact ⟨hi _ .allocOk, (hr.fresh h.arena hl).1⟩

theorem Inv.resize {s0 s cs L} {o : Owned} (h : Inv s0 s cs (o :: L)) {p : Nat} {old new : Layout} (hf : o.Fits p old)
    (hl : new.Valid) :
    (∃ e, BadAnswer s.w e ∧ Blink.step s (.resize p old new) = .error e) ∨
    ∃ q s' cs', Blink.step s (.resize p old new) = .ok (Resp.ofOption q, s') ∧ s'.w.debug = s.w.debug ∧
      Keep (o :: L) s.w.mem s'.w.mem ∧ (q = none → Inv s0 s' cs' (o :: L)) ∧
      (∀ blk, q = some blk → Inv s0 s' cs' (Owned.of blk new :: L) ∧ new.size ≤ blk.len ∧ (old.size ≤ new.size → blk.len = new.size) ∧
        ∀ i, i < Nat.min old.size new.size → s'.w.mem (blk.addr + i) = s.w.mem (p + i)) := by
  have hleg : Legal (o :: L) (.resize p old new) := .resize List.mem_cons_self hf hl
  rcases h.step hleg with he | ⟨r, s', cs', he, ⟨q, ho, hr⟩, hi⟩
  · exact .inl he
  · right
    subst ho
    refine ⟨q, s', cs', he, hr.consts.1, h.keep hleg he (by simp), ?_, ?_⟩
    · rintro rfl; exact hi _ .resizeErr
    · rintro blk rfl
      have h1 := hi _ (.resizeOk List.mem_cons_self hf)
      rw [List.erase_cons_head] at h1
      have hu := InUsed.of_fits h.led List.mem_cons_self hf
      refine ⟨h1, (h1.led.each _ List.mem_cons_self).1, ?_, fun i hi => hr.contents h.arena hl hu (by rw [Nat.min_comm]; exact hi)⟩
      intro hle
      generalize s'.w = w' at hr
      cases hr with
      | same ha hs => show old.size = new.size; omega
      | grow => rfl
      | move s w1 cs1 hn hg hr => exact (hr.fresh h.arena hl).1

theorem Inv.deallocate {s0 s cs L} {o : Owned} (h : Inv s0 s cs (o :: L)) {n : Nat} (h1 : o.size ≤ n) (h2 : n ≤ o.len) :
    ∃ s' cs', Blink.step s (.deallocate o.addr n) = .ok (.unit, s') ∧ s'.w = s.w ∧ Inv s0 s' cs' L := by
  have hleg : Legal (o :: L) (.deallocate o.addr n) := .deallocate List.mem_cons_self ⟨rfl, h1, h2⟩
  rcases h.step' hleg with ⟨e, ⟨_, he⟩, _⟩ | ⟨r, s', cs', he, ⟨hr, hw, _⟩, hi⟩
  · exact absurd he (by simp [NeedsChunk])
  · subst hr
    have h1 := hi _ (.deallocate List.mem_cons_self ⟨rfl, h1, h2⟩)
    rw [List.erase_cons_head] at h1
    exact ⟨s', cs', he, hw, h1⟩

theorem Inv.reset {s0 s cs L} (h : Inv s0 s cs L) :
    ∃ s' cs', Blink.step s .reset = .ok (.unit, s') ∧ s'.w.debug = s.w.debug ∧ Inv s0 s' cs' [] := by
  rcases h.step' .reset with ⟨e, ⟨_, he⟩, _⟩ | ⟨r, s', cs', he, hr, hi⟩
  · exact absurd he (by simp [NeedsChunk])
  · have hc := hr.consts.1
    obtain ⟨hr, _, _⟩ := hr
    subst hr
    exact ⟨s', cs', he, hc, hi _ .reset⟩

theorem Inv.resetFinal {s0 s cs L} (h : Inv s0 s cs L) :
    ∃ s' cs', Blink.step s .resetFinal = .ok (.unit, s') ∧ s'.w.debug = s.w.debug ∧ Inv s0 s' cs' [] := by
  rcases h.step' .resetFinal with ⟨e, ⟨_, he⟩, _⟩ | ⟨r, s', cs', he, hr, hi⟩
  · exact absurd he (by simp [NeedsChunk])
  · have hc := hr.consts.1
    obtain ⟨hr, _, _⟩ := hr
    subst hr
    exact ⟨s', cs', he, hc, hi _ .resetFinal⟩

/-- Memory changes inside an owned block keep the invariant. -/
theorem Inv.setMem {s0 s cs L} {o : Owned} (h : Inv s0 s cs L) (ho : o ∈ L) {a n : Nat} {f : Nat → Byte}
    (ha : o.addr ≤ a) (hn : a + n ≤ o.addr + o.len) :
    Inv s0 { s with w := { s.w with mem := setBytes s.w.mem a n f } } cs L where
  arena := h.arena.setUsed (.inr ((h.led.each o ho).2.2.2.sub ha hn))
  root := h.root
  min := h.min
  dbg := h.dbg
  led := h.led
  oracle := h.oracle
  top := h.top
  log := h.log

theorem Inv.acc {s0 s cs L} {o : Owned} (h : Inv s0 s cs L) (ho : o ∈ L) {a n : Nat}
    (ha : o.addr ≤ a) (hn : a + n ≤ o.addr + o.len) : s.w.accessible a n = true :=
  h.arena.acc_used ((h.led.each o ho).2.2.2.sub ha hn)

/-- Writing inside one block leaves the others alone. -/
theorem Inv.setMem_keep {s0 s cs L} {o : Owned} (h : Inv s0 s cs (o :: L)) {a n : Nat} {f : Nat → Byte}
    (ha : o.addr ≤ a) (hn : a + n ≤ o.addr + o.len) : Keep L s.w.mem (setBytes s.w.mem a n f) := by
  intro b hb x hx
  have hap := h.led.apart
  rw [List.pairwise_cons] at hap
  have := hap.1 b hb x
  apply setBytes_out
  apply Decidable.byContradiction
  intro hc
  exact this ⟨⟨by omega, by omega⟩, hx⟩

theorem Inv.align {s0 s cs L} {o : Owned} (h : Inv s0 s cs L) (ho : o ∈ L) {a : Nat} (ha : ∃ k, a = 2 ^ k) (hle : a ≤ o.align) :
    o.addr % a = 0 :=
  let ⟨_, h2, h3, _⟩ := h.led.each o ho
  pow2_mod ha h2 hle h3

theorem Inv.pos {s0 s cs L} {o : Owned} (h : Inv s0 s cs L) (ho : o ∈ L) : 0 < o.addr := by
  obtain ⟨_, _, _, d, hd, h4, h5⟩ := h.led.each o ho
  have := (h.arena.ok d hd).pos
  omega

end Blink
