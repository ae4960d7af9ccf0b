import Verif.Proofs.AnyAlloc
import Verif.Proofs.Frame
/-
  The allocator under a `Blink`, be it `BlinkAlloc` or one of which nothing is known: what calls do to the blocks of the caller.
-/
namespace Blink

/-- Memory a caller may read is left alone by an allocation and is apart from the new block. -/
theorem Inv.source {s0 s cs L} (h : Inv s0 s cs L) {l : Layout} (hl : l.Valid) {blk : Slice} {s' : St}
    (he : Blink.step s (.allocate l) = .ok (.block blk, s')) {a n : Nat}
    (hr : (∃ o ∈ L, o.addr ≤ a ∧ a + n ≤ o.addr + o.len) ∨ ∃ f ∈ s0.w.held, f.addr ≤ a ∧ a + n ≤ f.addr + f.len) :
    s'.w.accessible a n = true ∧ (∀ x, a ≤ x → x < a + n → s'.w.mem x = s.w.mem x) ∧
      ∀ x, a ≤ x → x < a + n → ¬ (Owned.of blk l).Has x := by
  rcases h.step (.allocate hl) with ⟨e, _, he'⟩ | ⟨r, s1, cs1, he', ⟨o, ho, hres⟩, hi⟩
  · rw [he'] at he; cases he
  rw [he'] at he
  injection he with he
  injection he with h1 h2
  subst h2
  cases o with
  | none => rw [ho] at h1; cases h1
  | some sl =>
    rw [ho] at h1
    injection h1 with h1
    subst h1
    subst ho
    have hI := hi _ .allocOk
    rcases hr with ⟨o, hoL, ha, hb⟩ | ⟨f, hf, ha, hb⟩
    · refine ⟨hI.acc (List.mem_cons_of_mem _ hoL) ha hb, fun x h1 h2 => ?_, fun x h1 h2 hx => ?_⟩
      · exact h.keep (.allocate hl) he' (by simp) o hoL x ⟨by omega, by omega⟩
      · have := hI.led.apart
        rw [List.pairwise_cons] at this
        exact this.1 o hoL x ⟨hx, by omega, by omega⟩
    · refine ⟨?_, fun x h1 h2 => ?_, fun x h1 h2 hx => ?_⟩
      · exact accessible_of (hI.arena.perm.mem_iff.mpr (List.mem_append_right _ hf)) ha hb
      · refine hres.frame_out hI.arena.ok fun c hc => ?_
        have := hI.arena.foreign hf hc
        omega
      · obtain ⟨d, hd, h3, h4⟩ := (hI.led.each _ List.mem_cons_self).2.2.2
        have := hI.arena.foreign hf hd
        have hx1 := hx.1
        have hx2 := hx.2
        have := (hI.arena.ok d hd).hi
        omega

theorem After.lift {X D D' : List Owned} {op : Op} {r : Resp} (h : After D op r D') (hn : op.NoReset) :
    ∃ L', After (X ++ D) op r L' ∧ L'.Perm (X ++ D') := by
  have herase : ∀ o ∈ D, ((X ++ D).erase o).Perm (X ++ D.erase o) := by
    intro o ho
    have h1 : (o :: (X ++ D).erase o).Perm (o :: (X ++ D.erase o)) :=
      ((List.perm_cons_erase (List.mem_append_right X ho)).symm).trans
        ((List.Perm.append_left X (List.perm_cons_erase ho)).trans List.perm_middle)
    exact h1.cons_inv
  cases h with
  | allocOk => exact ⟨_, .allocOk, List.perm_middle.symm⟩
  | allocErr => exact ⟨_, .allocErr, List.Perm.refl _⟩
  | zeroedOk => exact ⟨_, .zeroedOk, List.perm_middle.symm⟩
  | zeroedErr => exact ⟨_, .zeroedErr, List.Perm.refl _⟩
  | resizeOk hb hf => exact ⟨_, .resizeOk (List.mem_append_right _ hb) hf, ((herase _ hb).cons _).trans List.perm_middle.symm⟩
  | resizeErr => exact ⟨_, .resizeErr, List.Perm.refl _⟩
  | growZeroedOk hb hf => exact ⟨_, .growZeroedOk (List.mem_append_right _ hb) hf, ((herase _ hb).cons _).trans List.perm_middle.symm⟩
  | growZeroedErr => exact ⟨_, .growZeroedErr, List.Perm.refl _⟩
  | deallocate hb hf => exact ⟨_, .deallocate (List.mem_append_right _ hb) hf, herase _ hb⟩
  | reset => exact absurd rfl hn.1
  | resetFinal => exact absurd rfl hn.2
  | write => exact ⟨_, .write, List.Perm.refl _⟩

theorem Legal.lift {X D : List Owned} {op : Op} (h : Legal D op) : Legal (X ++ D) op := by
  cases h with
  | allocate h => exact .allocate h
  | allocateZeroed h => exact .allocateZeroed h
  | resize hb hf h => exact .resize (List.mem_append_right _ hb) hf h
  | growZeroed hb hf h hs => exact .growZeroed (List.mem_append_right _ hb) hf h hs
  | deallocate hb hf => exact .deallocate (List.mem_append_right _ hb) hf
  | reset => exact .reset
  | resetFinal => exact .resetFinal
  | write hb hx => exact .write (List.mem_append_right _ hb) hx

/-- Direct calls, also writes, leave the blocks of others alone. -/
theorem Inv.keepOthers {s0 s cs X D s'} (h : Inv s0 s cs (X ++ D)) {op : Op} {r : Resp} (hl : Legal D op) (hn : op.NoReset)
    (hs : Blink.step s op = .ok (r, s')) : Keep X s.w.mem s'.w.mem := by
  by_cases hw : ∃ x v, op = .write x v
  · obtain ⟨x, v, rfl⟩ := hw
    intro o ho y hy
    rcases h.step hl.lift with ⟨e, _, he⟩ | ⟨r1, s1, cs1, he, ⟨_, hr, _⟩, _⟩
    · rw [he] at hs; cases hs
    rw [he] at hs
    injection hs with hs
    injection hs with _ h2
    subst h2
    rw [hr]
    dsimp only
    cases hl with
    | @write b _ _ hb hx =>
      have hap := h.led.apart
      rw [List.pairwise_append] at hap
      have := hap.2.2 o ho b hb
      apply setBytes_out
      apply Decidable.byContradiction
      intro hc
      have : y = x := by omega
      subst this
      exact hap.2.2 o ho b hb y ⟨hy, hx⟩
  · refine (h.keep hl.lift hs ⟨hn.1, hn.2, fun x v hc => hw ⟨x, v, hc⟩⟩).sub fun o ho => List.mem_append_left _ ho

/-- Does the allocator tell the length asked for? -/
def AKind.exact : AKind → Bool
  | .any e _ _ => e
  | _ => true

theorem AKind.step_arena {k : AKind} (h : k.isAny = false) (s : St) (op : Op) : k.step s op = Blink.step s op := by
  cases k <;> first | rfl | cases h

/-- The invariant of either kind of allocator. -/
inductive KindInv (k : AKind) (s0 s : St) (cs : List Chunk) (L : List Owned) : Prop
  | arena (hk : k.isAny = false) (h : Inv s0 s cs L)
  | any (exact keeps : Bool) (hk : k = .any exact keeps s0.w.held) (h0 : HeldOK s0.w) (h : AnyInv s0 s L)

theorem KindInv.toInv {k s0 s cs L} (h : KindInv k s0 s cs L) (hk : k.isAny = false) : Inv s0 s cs L := by
  cases h with
  | arena _ h => exact h
  | any e kp hk2 _ _ => rw [hk2] at hk; cases hk

theorem KindInv.perm {k s0 s cs L L'} (h : KindInv k s0 s cs L) (hp : L.Perm L') : KindInv k s0 s cs L' := by
  cases h with
  | arena hk h => exact .arena hk (h.perm hp)
  | any e kp hk h0 h => exact .any e kp hk h0 (h.perm hp)

theorem KindInv.sublist {k s0 s cs L L'} (h : KindInv k s0 s cs L) (hp : L'.Sublist L) : KindInv k s0 s cs L' := by
  cases h with
  | arena hk h => exact .arena hk (h.sublist hp)
  | any e kp hk h0 h => exact .any e kp hk h0 (h.sublist hp)

theorem KindInv.apart {k s0 s cs L} (h : KindInv k s0 s cs L) : L.Pairwise Owned.Apart := by
  cases h with
  | arena hk h => exact h.led.apart
  | any e kp hk h0 h => exact h.apart

theorem KindInv.acc {k s0 s cs L} {o : Owned} (h : KindInv k s0 s cs L) (ho : o ∈ L) {a n : Nat}
    (ha : o.addr ≤ a) (hn : a + n ≤ o.addr + o.len) : s.w.accessible a n = true := by
  cases h with
  | arena hk h => exact h.acc ho ha hn
  | any e kp hk h0 h => exact h.acc ho ha hn

theorem KindInv.align {k s0 s cs L} {o : Owned} (h : KindInv k s0 s cs L) (ho : o ∈ L) {a : Nat} (ha : ∃ k, a = 2 ^ k) (hle : a ≤ o.align) :
    o.addr % a = 0 := by
  cases h with
  | arena hk h => exact h.align ho ha hle
  | any e kp hk h0 h =>
    obtain ⟨d, _, hc⟩ := h.get ho
    exact pow2_mod ha hc.pow hle hc.al

theorem KindInv.pos {k s0 s cs L} {o : Owned} (h : KindInv k s0 s cs L) (ho : o ∈ L) : 0 < o.addr := by
  cases h with
  | arena hk h => exact h.pos ho
  | any e kp hk h0 h =>
    obtain ⟨d, hd, hc⟩ := h.get ho
    have := (h.held.rng d hd).1
    have := hc.addr
    omega

theorem KindInv.setMem {k s0 s cs L} {o : Owned} (h : KindInv k s0 s cs L) (ho : o ∈ L) {a n : Nat} {f : Nat → Byte}
    (ha : o.addr ≤ a) (hn : a + n ≤ o.addr + o.len) :
    KindInv k s0 { s with w := { s.w with mem := setBytes s.w.mem a n f } } cs L := by
  cases h with
  | arena hk h => exact .arena hk (h.setMem ho ha hn)
  | any e kp hk h0 h =>
    refine .any e kp hk h0 (h.congr rfl rfl rfl fun f hf x h1 h2 => ?_)
    dsimp only
    apply setBytes_out
    apply Decidable.byContradiction
    intro hc
    have := h.away ho hf (x := x) ⟨by omega, by omega⟩
    omega

/-- Writing inside one block leaves the others alone. -/
theorem KindInv.setMem_keep {k s0 s cs L} {o : Owned} (h : KindInv k s0 s cs (o :: L)) {a n : Nat} {f : Nat → Byte}
    (ha : o.addr ≤ a) (hn : a + n ≤ o.addr + o.len) : Keep L s.w.mem (setBytes s.w.mem a n f) := by
  intro b hb x hx
  have hap := h.apart
  rw [List.pairwise_cons] at hap
  have := hap.1 b hb x
  apply setBytes_out
  apply Decidable.byContradiction
  intro hc
  exact this ⟨⟨by omega, by omega⟩, hx⟩

/-! ### Calls of an allocator of which nothing is known -/

theorem AnyInv.keepAll {s0 s L} (h : AnyInv s0 s L) {w' : World}
    (hm : ∀ b ∈ s.w.held, b ∈ w'.held ∧ ∀ x, b.addr ≤ x → x < b.addr + b.len → w'.mem x = s.w.mem x) : Keep L s.w.mem w'.mem := by
  intro o ho x hx
  obtain ⟨d, hd, hc⟩ := h.get ho
  have := hc.addr; have := hc.len; have := hx.1; have := hx.2
  exact (hm d hd).2 x (by omega) (by omega)

theorem St.mem_ok {α} {s : St} {x : M α} {f : α → Resp} {a : α} {w : World} (h : x s.w = .ok (a, w)) :
    s.mem x f = .ok (f a, { s with w := w }) := by
  unfold St.mem
  rw [ebind_ok' h]
  rfl

theorem St.mem_err {α} {s : St} {x : M α} {f : α → Resp} {e : Fault} (h : x s.w = .error e) : s.mem x f = .error e := by
  unfold St.mem
  rw [ebind_err' h]

/-- Both allocating methods. -/
theorem AnyInv.allocate {s0 s L} (h : AnyInv s0 s L) {l : Layout} (hl : l.Valid) (exact keeps z : Bool) (others : List BaseBlk) :
    let op : Op := if z = true then .allocateZeroed l else .allocate l
    (∃ e, BadAnswer s.w e ∧ anyStep exact keeps others s op = .error e) ∨
    ∃ o s', anyStep exact keeps others s op = .ok (Resp.ofOption o, s') ∧ s'.w.debug = s.w.debug ∧ Keep L s.w.mem s'.w.mem ∧
      (∀ b ∈ s.w.held, b ∈ s'.w.held ∧ ∀ x, b.addr ≤ x → x < b.addr + b.len → s'.w.mem x = s.w.mem x) ∧
      (o = none → AnyInv s0 s' L) ∧ (∀ blk, o = some blk → AnyInv s0 s' (Owned.of blk l :: L) ∧ l.size ≤ blk.len ∧
        (exact = true → blk.len = l.size) ∧ ∃ sl, freshOk s.w l sl = true ∧ blk.addr = sl.addr ∧ blk.len ≤ sl.len) := by
  have key : ∀ z r w', DAlloc s.w l z r w' →
      ∃ o, Resp.ofOption (r.map (trim exact l)) = Resp.ofOption o ∧ w'.debug = s.w.debug ∧ Keep L s.w.mem w'.mem ∧
      (∀ b ∈ s.w.held, b ∈ w'.held ∧ ∀ x, b.addr ≤ x → x < b.addr + b.len → w'.mem x = s.w.mem x) ∧
      (o = none → AnyInv s0 { s with w := w' } L) ∧ (∀ blk, o = some blk → AnyInv s0 { s with w := w' } (Owned.of blk l :: L) ∧ l.size ≤ blk.len ∧
        (exact = true → blk.len = l.size) ∧ ∃ sl, freshOk s.w l sl = true ∧ blk.addr = sl.addr ∧ blk.len ≤ sl.len) := by
    intro z r w' hr
    obtain ⟨h1, h2, h3, h4⟩ := h.alloc hl hr exact
    refine ⟨r.map (trim exact l), rfl, h1, h.keepAll h2, h2, fun ho => h3 ?_, fun blk ho => ?_⟩
    · cases r with
      | none => rfl
      | some _ => cases ho
    · cases r with
      | none => cases ho
      | some sl =>
        injection ho with ho
        subst ho
        obtain ⟨g1, g2, g3, g4, g5, g6⟩ := h4 sl rfl
        exact ⟨g1, g2, g3, sl, g6, g4, g5⟩
  cases z with
  | false =>
    dsimp only
    rw [if_neg (by simp)]
    rcases baseAlloc_dspec s.w l with ⟨e, hb, he⟩ | ⟨r, w', he, hr⟩
    · exact .inl ⟨e, hb, by simp only [anyStep]; exact St.mem_err he⟩
    · obtain ⟨o, h1, h2⟩ := key _ r w' hr
      exact .inr ⟨o, { s with w := w' }, by simp only [anyStep]; rw [St.mem_ok he, h1], h2⟩
  | true =>
    dsimp only
    rw [if_pos rfl]
    rcases baseAllocZeroed_dspec s.w l with ⟨e, hb, he⟩ | ⟨r, w', he, hr⟩
    · exact .inl ⟨e, hb, by simp only [anyStep]; exact St.mem_err he⟩
    · obtain ⟨o, h1, h2⟩ := key _ r w' hr
      exact .inr ⟨o, { s with w := w' }, by simp only [anyStep]; rw [St.mem_ok he, h1], h2⟩

/-- The resizing methods. -/
theorem AnyInv.resize {s0 s L} {o : Owned} (h : AnyInv s0 s (o :: L)) {p : Nat} {old new : Layout} (hf : o.Fits p old)
    (hl : new.Valid) (hp : 0 < old.size) (exact keeps z : Bool) (hz : z = true → old.size ≤ new.size) (others : List BaseBlk) :
    let op : Op := if z = true then .growZeroed p old new else .resize p old new
    (∃ e, BadAnswer s.w e ∧ anyStep exact keeps others s op = .error e) ∨
    ∃ q s', anyStep exact keeps others s op = .ok (Resp.ofOption q, s') ∧ s'.w.debug = s.w.debug ∧
      Keep L s.w.mem s'.w.mem ∧ (q = none → AnyInv s0 s' (o :: L) ∧ s'.w.mem = s.w.mem) ∧
      (∀ blk, q = some blk → AnyInv s0 s' (Owned.of blk new :: L) ∧ new.size ≤ blk.len ∧ (exact = true → blk.len = new.size) ∧
        ∀ i, i < min old.size new.size → s'.w.mem (blk.addr + i) = s.w.mem (p + i)) := by
  obtain ⟨d, hd, hc, hfor, ht⟩ := h.take
  have hda : d.addr = p := hc.addr.trans hf.1
  have hfit := hc.fits hf
  rw [← hda] at hfit
  have key : ∀ r w', AResize s.w d old new r w' →
      ∃ q, Resp.ofOption (r.map (trim exact new)) = Resp.ofOption q ∧ w'.debug = s.w.debug ∧
      Keep L s.w.mem w'.mem ∧ (q = none → AnyInv s0 { s with w := w' } (o :: L) ∧ w'.mem = s.w.mem) ∧
      (∀ blk, q = some blk → AnyInv s0 { s with w := w' } (Owned.of blk new :: L) ∧ new.size ≤ blk.len ∧ (exact = true → blk.len = new.size) ∧
        ∀ i, i < min old.size new.size → w'.mem (blk.addr + i) = s.w.mem (p + i)) := by
    intro r w' hr
    obtain ⟨h1, h2, h3, h4⟩ := h.resized hfor ht hl hr exact
    refine ⟨r.map (trim exact new), rfl, h1, h2, fun ho => h3 ?_, fun blk ho => ?_⟩
    · cases r with
      | none => rfl
      | some _ => cases ho
    · cases r with
      | none => cases ho
      | some sl =>
        injection ho with ho
        subst ho
        rw [← hda]
        exact h4 sl rfl
  cases z with
  | false =>
    dsimp only
    rw [if_neg (by simp)]
    rcases baseResize_any h.held hd (new := new) hfit hp rfl with ⟨e, hb, he⟩ | ⟨r, w', he, hr⟩
    · rw [hda] at he
      exact .inl ⟨e, hb, by simp only [anyStep]; exact St.mem_err he⟩
    · obtain ⟨q, h1, h2⟩ := key r w' hr
      rw [hda] at he
      exact .inr ⟨q, { s with w := w' }, by simp only [anyStep]; rw [St.mem_ok he, h1], h2⟩
  | true =>
    dsimp only
    rw [if_pos rfl]
    rcases anyGrowZeroed_any h.held hd (new := new) hfit hp (hz rfl) with ⟨e, hb, he⟩ | ⟨r, w', he, hr⟩
    · rw [hda] at he
      exact .inl ⟨e, hb, by simp only [anyStep]; exact St.mem_err he⟩
    · obtain ⟨q, h1, h2⟩ := key r w' hr
      rw [hda] at he
      exact .inr ⟨q, { s with w := w' }, by simp only [anyStep]; rw [St.mem_ok he, h1], h2⟩

/-- `deallocate`, called by `Blink`. -/
theorem AnyInv.dealloc {s0 s L} {o : Owned} (h : AnyInv s0 s (o :: L)) {l : Layout} (hf : o.Fits o.addr l) (hp : 0 < l.size) :
    ∃ w', baseDealloc o.addr l s.w = .ok ((), w') ∧ w'.debug = s.w.debug ∧ Keep L s.w.mem w'.mem ∧ AnyInv s0 { s with w := w' } L := by
  obtain ⟨d, hd, hc, hfor, ht⟩ := h.take
  have hfit := hc.fits hf
  rw [← hc.addr] at hfit
  obtain ⟨w', e1, e2, e3, e4, e5, e6⟩ := baseDealloc_any h.held hd hfit hp
  rw [hc.addr] at e1
  exact ⟨w', e1, e5, AnyInv.keepBut ht e6, ht { s with w := w' } e2 e3 e4 (e6.same hfor)⟩

/-- `deallocate`, called by others. -/
theorem AnyInv.deallocate {s0 s L} {o : Owned} (h : AnyInv s0 s (o :: L)) {n : Nat} (h1 : o.size ≤ n) (h2 : n ≤ o.len) (hp : 0 < n) :
    ∃ w', anyDealloc o.addr n s.w = .ok ((), w') ∧ w'.debug = s.w.debug ∧ Keep L s.w.mem w'.mem ∧ AnyInv s0 { s with w := w' } L := by
  obtain ⟨d, hd, hc, hfor, ht⟩ := h.take
  have hfit : d.fits d.addr ⟨n, d.req.align⟩ = true := by
    rw [hc.addr]
    exact hc.fits ⟨rfl, (by rw [hc.req]), h1, h2⟩
  obtain ⟨w', e1, e2, e3, e4, e5, e6⟩ := anyDealloc_any h.held hd hfit hp
  rw [hc.addr] at e1
  exact ⟨w', e1, e5, AnyInv.keepBut ht e6, ht { s with w := w' } e2 e3 e4 (e6.same hfor)⟩

/-! ### Calls of either kind of allocator -/

theorem KindInv.allocate {k s0 s cs L} (h : KindInv k s0 s cs L) {l : Layout} (hl : l.Valid) :
    (∃ e, BadAnswer s.w e ∧ k.step s (.allocate l) = .error e) ∨
    ∃ o s' cs', k.step s (.allocate l) = .ok (Resp.ofOption o, s') ∧ s'.w.debug = s.w.debug ∧ Keep L s.w.mem s'.w.mem ∧
      (o = none → KindInv k s0 s' cs' L) ∧
      (∀ blk, o = some blk → KindInv k s0 s' cs' (Owned.of blk l :: L) ∧ l.size ≤ blk.len ∧ (k.exact = true → blk.len = l.size)) := by
  cases h with
  | arena hk h =>
    rw [AKind.step_arena hk]
    rcases h.allocate hl with he | ⟨o, s', cs', e1, e2, e3, e4, e5⟩
    · exact .inl he
    · exact .inr ⟨o, s', cs', e1, e2, e3, fun ho => .arena hk (e4 ho), fun blk ho => ⟨.arena hk (e5 blk ho).1, by have := (e5 blk ho).2; omega,
        fun _ => (e5 blk ho).2⟩⟩
  | any e kp hk h0 h =>
    subst hk
    rcases h.allocate hl e kp false s0.w.held with he | ⟨o, s', e1, e2, e3, _, e4, e5⟩
    · exact .inl he
    · exact .inr ⟨o, s', cs, e1, e2, e3, fun ho => .any e kp rfl h0 (e4 ho), fun blk ho =>
        ⟨.any e kp rfl h0 (e5 blk ho).1, (e5 blk ho).2.1, (e5 blk ho).2.2.1⟩⟩

theorem KindInv.resize {k s0 s cs L} {o : Owned} (h : KindInv k s0 s cs (o :: L)) {p : Nat} {old new : Layout} (hf : o.Fits p old)
    (hl : new.Valid) (hp : 0 < old.size) :
    (∃ e, BadAnswer s.w e ∧ k.step s (.resize p old new) = .error e) ∨
    ∃ q s' cs', k.step s (.resize p old new) = .ok (Resp.ofOption q, s') ∧ s'.w.debug = s.w.debug ∧
      Keep L s.w.mem s'.w.mem ∧ (q = none → KindInv k s0 s' cs' (o :: L) ∧ Keep [o] s.w.mem s'.w.mem) ∧
      (∀ blk, q = some blk → KindInv k s0 s' cs' (Owned.of blk new :: L) ∧ new.size ≤ blk.len ∧
        (k.exact = true → old.size ≤ new.size → blk.len = new.size) ∧
        ∀ i, i < min old.size new.size → s'.w.mem (blk.addr + i) = s.w.mem (p + i)) := by
  cases h with
  | arena hk h =>
    rw [AKind.step_arena hk]
    rcases h.resize hf hl with he | ⟨q, s', cs', e1, e2, e3, e4, e5⟩
    · exact .inl he
    · refine .inr ⟨q, s', cs', e1, e2, e3.sub fun _ ho => List.mem_cons_of_mem _ ho, fun ho => ⟨.arena hk (e4 ho), e3.sub (by simp +contextual)⟩,
        fun blk ho => ?_⟩
      obtain ⟨g1, g2, g3, g4⟩ := e5 blk ho
      exact ⟨.arena hk g1, g2, fun _ => g3, g4⟩
  | any e kp hk h0 h =>
    subst hk
    rcases h.resize hf hl hp e kp false (by simp) s0.w.held with he | ⟨q, s', e1, e2, e3, e4, e5⟩
    · exact .inl he
    · refine .inr ⟨q, s', cs, e1, e2, e3, fun ho => ⟨.any e kp rfl h0 (e4 ho).1, by rw [(e4 ho).2]; exact Keep.refl _ _⟩, fun blk ho => ?_⟩
      obtain ⟨g1, g2, g3, g4⟩ := e5 blk ho
      exact ⟨.any e kp rfl h0 g1, g2, fun hx _ => g3 hx, g4⟩

/-- Does `reset` or dropping the allocator itself give back its blocks? -/
def AKind.frees : AKind → Bool
  | .owned => true
  | .any _ k _ => !k
  | _ => false

theorem AKind.frees_keeps {k : AKind} (h : k.frees = true) : k.keeps = false := by
  cases k <;> first | rfl | (cases h; done) | (rename_i k _; cases k <;> first | rfl | cases h)

theorem KindInv.reset {k s0 s cs L} (h : KindInv k s0 s cs L) (hk : k.keeps = false) {op : Op} (hop : op = .reset ∨ op = .resetFinal) :
    ∃ s' cs', k.step s op = .ok (.unit, s') ∧ s'.w.debug = s.w.debug ∧ KindInv k s0 s' cs' [] := by
  cases h with
  | arena ha h =>
    rw [AKind.step_arena ha]
    rcases hop with rfl | rfl
    · obtain ⟨s', cs', e1, e2, e3⟩ := h.reset
      exact ⟨s', cs', e1, e2, .arena ha e3⟩
    · obtain ⟨s', cs', e1, e2, e3⟩ := h.resetFinal
      exact ⟨s', cs', e1, e2, .arena ha e3⟩
  | any e kp hk' h0 h =>
    subst hk'
    have hkp : kp = false := hk
    subst hkp
    refine ⟨_, cs, ?_, ?_, .any e false rfl h0 (h.reset h0 (m := fun x =>
      if s0.w.held.any (fun b => decide (b.addr ≤ x ∧ x < b.addr + b.len)) then s.w.mem x else .uninit)
      fun f hf x h1 h2 => if_pos (List.any_eq_true.mpr ⟨f, hf, by simp only [decide_eq_true_eq]; exact ⟨h1, h2⟩⟩))⟩
    · rcases hop with rfl | rfl <;> rfl
    · rfl

/-- Memory a caller may read is left alone by an allocation and is apart from the new block. -/
theorem KindInv.source {k s0 s cs L} (h : KindInv k s0 s cs L) {l : Layout} (hl : l.Valid) {blk : Slice} {s' : St}
    (he : k.step s (.allocate l) = .ok (.block blk, s')) {a n : Nat}
    (hr : (∃ o ∈ L, o.addr ≤ a ∧ a + n ≤ o.addr + o.len) ∨ ∃ f ∈ s0.w.held, f.addr ≤ a ∧ a + n ≤ f.addr + f.len) :
    s'.w.accessible a n = true ∧ (∀ x, a ≤ x → x < a + n → s'.w.mem x = s.w.mem x) ∧
      ∀ x, a ≤ x → x < a + n → ¬ (Owned.of blk l).Has x := by
  cases h with
  | arena hk h =>
    rw [AKind.step_arena hk] at he
    exact h.source hl he hr
  | any e kp hk h0 h =>
    subst hk
    rcases h.allocate hl e kp false s0.w.held with ⟨_, _, he'⟩ | ⟨o, s1, e1, e2, e3, e6, e4, e5⟩
    · exact absurd (he'.symm.trans he) (by simp)
    · have he2 := e1.symm.trans he
      injection he2 with he2
      injection he2 with g1 g2
      subst g2
      cases o with
      | none => cases g1
      | some b =>
        injection g1 with g1
        subst g1
        obtain ⟨_, _, _, sl, f1, f2, f3⟩ := e5 b rfl
        obtain ⟨f, hf, ha, hb⟩ : ∃ f ∈ s.w.held, f.addr ≤ a ∧ a + n ≤ f.addr + f.len := by
          rcases hr with ⟨o, ho, ha, hb⟩ | ⟨f, hf, ha, hb⟩
          · obtain ⟨d, hd, hc⟩ := h.get ho
            have := hc.addr; have := hc.len
            exact ⟨d, hd, by omega, by omega⟩
          · exact ⟨f, h.foreign hf, ha, hb⟩
        refine ⟨accessible_of (e6 f hf).1 ha hb, fun x h1 h2 => (e6 f hf).2 x (by omega) (by omega), fun x h1 h2 hx => ?_⟩
        have := fresh_out f1 hf (x := x) (by omega) (by omega)
        have g1 := hx.1
        have g2 := hx.2
        simp only [Owned.of] at g1 g2
        omega

/-- Does a direct call name a block with at least one byte? -/
def Op.Sized : Op → Prop
  | .resize _ old _ => 0 < old.size
  | .growZeroed _ old _ => 0 < old.size
  | .deallocate _ n => 0 < n
  | _ => True

theorem perm_out {X D : List Owned} {o : Owned} (ho : o ∈ D) : (X ++ D).Perm (o :: (X ++ D.erase o)) :=
  (List.Perm.append_left X (List.perm_cons_erase ho)).trans List.perm_middle

/-- A call of the allocator by the owner of `D` leaves the owner of `X` alone. -/
theorem KindInv.direct {k s0 s cs X D} (h : KindInv k s0 s cs (X ++ D)) {op : Op} (hl : Legal D op) (hn : op.NoReset)
    (hz : k.isAny = true → op.Sized) :
    (∃ e, BadAnswer s.w e ∧ k.step s op = .error e) ∨
    ∃ r s' cs', k.step s op = .ok (r, s') ∧ s'.w.debug = s.w.debug ∧ Keep X s.w.mem s'.w.mem ∧
      ∀ D', After D op r D' → KindInv k s0 s' cs' (X ++ D') := by
  cases h with
  | arena hk h =>
    rw [AKind.step_arena hk]
    rcases h.step hl.lift with he | ⟨r, s', cs', he, hr, hi⟩
    · exact .inl he
    · refine .inr ⟨r, s', cs', he, hr.consts.1, h.keepOthers hl hn he, fun D' hD => ?_⟩
      obtain ⟨L', ha, hp⟩ := hD.lift hn (X := X)
      exact .arena hk ((hi L' ha).perm hp)
  | any e kp hk h0 h =>
    subst hk
    have hz := hz rfl
    have alloc : ∀ z l, l.Valid → op = (if z = true then .allocateZeroed l else .allocate l) →
        (∃ e', BadAnswer s.w e' ∧ (AKind.any e kp s0.w.held).step s op = .error e') ∨
        ∃ r s' cs', (AKind.any e kp s0.w.held).step s op = .ok (r, s') ∧ s'.w.debug = s.w.debug ∧ Keep X s.w.mem s'.w.mem ∧
          ∀ D', After D op r D' → KindInv (AKind.any e kp s0.w.held) s0 s' cs' (X ++ D') := by
      intro z l hv hop
      rcases h.allocate hv e kp z s0.w.held with he | ⟨o, s', e1, e2, e3, _, e4, e5⟩
      · left; rw [hop]; exact he
      · refine .inr ⟨_, s', cs, by rw [hop]; exact e1, e2, e3.sub fun _ ho => List.mem_append_left _ ho, fun D' hD => ?_⟩
        refine .any e kp rfl h0 ?_
        cases o with
        | none =>
          have : D' = D := by
            rw [hop] at hD
            cases z <;> (cases hD; rfl)
          rw [this]
          exact e4 rfl
        | some blk =>
          have : D' = Owned.of blk l :: D := by
            rw [hop] at hD
            cases z <;> (cases hD; rfl)
          rw [this]
          exact (e5 blk rfl).1.perm List.perm_middle.symm
    have resize : ∀ z p old new b, b ∈ D → b.Fits p old → new.Valid → 0 < old.size → (z = true → old.size ≤ new.size) →
        op = (if z = true then .growZeroed p old new else .resize p old new) →
        (∃ e', BadAnswer s.w e' ∧ (AKind.any e kp s0.w.held).step s op = .error e') ∨
        ∃ r s' cs', (AKind.any e kp s0.w.held).step s op = .ok (r, s') ∧ s'.w.debug = s.w.debug ∧ Keep X s.w.mem s'.w.mem ∧
          ∀ D', After D op r D' → KindInv (AKind.any e kp s0.w.held) s0 s' cs' (X ++ D') := by
      intro z p old new b hb hf hv hp hle hop
      rcases (h.perm (perm_out hb)).resize hf hv hp e kp z hle s0.w.held with he | ⟨q, s', e1, e2, e3, e4, e5⟩
      · left; rw [hop]; exact he
      · refine .inr ⟨_, s', cs, by rw [hop]; exact e1, e2, e3.sub fun _ ho => List.mem_append_left _ ho, fun D' hD => ?_⟩
        refine .any e kp rfl h0 ?_
        cases q with
        | none =>
          have : D' = D := by
            rw [hop] at hD
            cases z <;> (cases hD; rfl)
          rw [this]
          exact (e4 rfl).1.perm (perm_out hb).symm
        | some blk =>
          have : ∃ b' ∈ D, b'.Fits p old ∧ D' = Owned.of blk new :: D.erase b' := by
            rw [hop] at hD
            cases z <;> (cases hD; exact ⟨_, by assumption, by assumption, rfl⟩)
          obtain ⟨b', hb', hf', rfl⟩ := this
          have hbb : b' = b := h.same (x := p) (List.mem_append_right _ hb') (List.mem_append_right _ hb)
            ⟨by have := hf'.1; omega, by have := hf'.1; have := hf'.2.2.2; omega⟩ ⟨by have := hf.1; omega, by have := hf.1; have := hf.2.2.2; omega⟩
          subst hbb
          exact (e5 blk rfl).1.perm List.perm_middle.symm
    cases hl with
    | allocate hv => exact alloc false _ hv rfl
    | allocateZeroed hv => exact alloc true _ hv rfl
    | resize hb hf hv => exact resize false _ _ _ _ hb hf hv hz (by simp) rfl
    | growZeroed hb hf hv hle => exact resize true _ _ _ _ hb hf hv hz (fun _ => hle) rfl
    | @deallocate b p n hb hf =>
      obtain ⟨rfl, h1, h2⟩ := hf
      obtain ⟨w', e1, e2, e3, e4⟩ := (h.perm (perm_out hb)).deallocate h1 h2 hz
      refine .inr ⟨.unit, { s with w := w' }, cs, by simp only [AKind.step, anyStep]; exact St.mem_ok e1, e2, e3.sub fun _ ho => List.mem_append_left _ ho, fun D' hD => ?_⟩
      cases hD with
      | @deallocate b' _ _ hb' hf' =>
        have hz : 0 < n := hz
        have hbb : b' = b := h.same (x := b.addr) (List.mem_append_right _ hb') (List.mem_append_right _ hb)
            ⟨by omega, by omega⟩ ⟨by omega, by omega⟩
        subst hbb
        exact .any e kp rfl h0 e4
    | reset => exact absurd rfl hn.1
    | resetFinal => exact absurd rfl hn.2
    | @write b x v hb hx =>
      refine .inr ⟨.unit, { s with w := { s.w with mem := setBytes s.w.mem x 1 (fun _ => v) } }, cs, rfl, rfl, ?_, fun D' hD => ?_⟩
      · intro o ho y hy
        have hap := h.apart
        rw [List.pairwise_append] at hap
        show setBytes s.w.mem x 1 (fun _ => v) y = _
        apply setBytes_out
        apply Decidable.byContradiction
        intro hc
        have : y = x := by omega
        subst this
        exact hap.2.2 o ho b hb y ⟨hy, hx⟩
      · cases hD
        refine .any e kp rfl h0 (h.congr rfl rfl rfl fun f hf y h1 h2 => ?_)
        dsimp only
        apply setBytes_out
        apply Decidable.byContradiction
        intro hc
        have := h.away (List.mem_append_right _ hb) hf hx
        omega

theorem KindInv.keepOthers {k s0 s cs X D s'} (h : KindInv k s0 s cs (X ++ D)) {op : Op} {r : Resp} (hl : Legal D op) (hn : op.NoReset)
    (hz : k.isAny = true → op.Sized) (hs : k.step s op = .ok (r, s')) : Keep X s.w.mem s'.w.mem := by
  rcases h.direct hl hn hz with ⟨e, _, he⟩ | ⟨r1, s1, cs1, he, _, hk, _⟩
  · rw [he] at hs; cases hs
  · rw [he] at hs
    injection hs with hs
    injection hs with _ h2
    subst h2
    exact hk

end Blink
