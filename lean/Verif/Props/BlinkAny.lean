import Verif.Props.BlinkIter
import Verif.Props.Blink
import Verif.Proofs.BlinkLeak
/-
  Property theorems about `Blink<A>` over an allocator `A` of which nothing is known but that it implements `BlinkAllocator`
  (src/api.rs:22-44) according to the contract of `Allocator`: C82, C83.

  `AKind.any exact keeps others` (Verif/Model/Blink.lean): `A` answers every request as it likes, with any block its contract allows
  (`BadAnswer` is the only fault that is its own). The theorems about `Blink` in Props/Blink, Props/BlinkEnd and Props/BlinkIter hold
  for it too, as far as they do not speak about `BlinkAlloc`.
-/
namespace Blink

/-- Actions that are legal whatever the allocator is. -/
def BState.plain (b0 : BState) : BBook → BOp → Prop := BLegal b0.types b0.s.w.held b0.s.w.debug

/-- C82 in full: over every allocator that meets its contract, what is legal over `BlinkAlloc` never faults, and a slice that
`from_iter` returns holds exactly the items yielded. -/
def C82_full : Prop :=
  ∀ {b0 b : BState} {bk : BBook} {tr op}, BStart b0 → BSteps b0 b0.plain b0 ⟨[], [], []⟩ tr b bk → b.over = false → b0.plain bk op →
    (∃ resp b', bstep b op = .ok (resp, b')) ∨ ∃ e, BadAnswer b.s.w e ∧ bstep b op = .error e

/-- The second half. -/
def C82_slices_full : Prop :=
  ∀ {b0 b b' : BState} {bk : BBook} {tr f fs x a n}, BStart b0 → BSteps b0 b0.plain b0 ⟨[], [], []⟩ tr b bk → b.over = false →
    b0.plain bk (.next x) → bk.frames = f :: fs → (b0.types f.r).tsize ≠ 0 → (∀ g ∈ bk.frames, g.ended = true → x = none) →
    bstep b (.next x) = .ok (.slice a n, b') →
    n = (f.got ++ x.toList).length ∧ Holds b'.s.w.mem a (b0.types f.r).tsize (f.got ++ x.toList)

/-- Run plain actions. -/
def plainExecAll (b0 b : BState) (bk : BBook) : List BOp → Option (List (BOp × BResp) × BState × BBook)
  | [] => some ([], b, bk)
  | op :: ops =>
    match bexecG b0 false false b bk op with
    | none => none
    | some (r, b', bk') =>
      match plainExecAll b0 b' bk' ops with
      | none => none
      | some (tr, b'', bk'') => some ((op, r) :: tr, b'', bk'')

theorem plainExecAll_sound {b0 b : BState} {bk ops tr b' bk'} (h : plainExecAll b0 b bk ops = some (tr, b', bk')) :
    BSteps b0 b0.plain b bk tr b' bk' := by
  induction ops generalizing b bk tr with
  | nil => simp only [plainExecAll, Option.some.injEq, Prod.mk.injEq] at h; obtain ⟨rfl, rfl, rfl⟩ := h; exact .nil
  | cons op ops ih =>
    unfold plainExecAll at h
    split at h
    · cases h
    rename_i r b1 bk1 h1
    split at h
    · cases h
    rename_i tr1 b2 bk2 h2
    simp only [Option.some.injEq, Prod.mk.injEq] at h
    obtain ⟨rfl, rfl, rfl⟩ := h
    obtain ⟨a1, a2, a3, a4⟩ := bexecG_sound h1
    have : BSteps b0 b0.plain b bk [(op, r)] b1 bk1 := BSteps.snoc (tr := []) .nil a1 a2.1 a3 a4
    exact this.trans (ih h2)

/-- The `Blink` of the examples below: any allocator. -/
def anyDemo (sizes : List Nat) (exact keeps : Bool) : BState := bdemo sizes (.any exact keeps [⟨64, 64, ⟨64, 8⟩⟩]) [] true

theorem anyDemo_start (sizes : List Nat) (exact keeps : Bool) : BStart (anyDemo sizes exact keeps) :=
  bdemo_start _ _ _ _ (by intro e k o h; injection h with _ _ h; exact h.symm)

/-- An iterator of words, with a size hint of 20, that returns `None` after one item and then goes on. -/
def shrinkOps : List BOp := [.fromIter .noDrop 2, .hint 20 none, .next (some 1), .next none, .next (some 2)]

/-- C82 in full is false of this code: if the iterator yields an item after `None`, `fill` asks the allocator to *grow* a block of 20
words to one of 17 (src/blink.rs:680 with 756-764), which is undefined behaviour unless the allocator happens to allow it (as
`BlinkAlloc` does). -/
theorem C82_full_false : ¬ C82_full := by
  intro hc
  have h : (match plainExecAll (anyDemo [512] true false) (anyDemo [512] true false) ⟨[], [], []⟩ shrinkOps with
      | some (_, b, bk) => !b.over && mayB false (anyDemo [512] true false).types (anyDemo [512] true false).s.w.held true bk (.hint 0 none) &&
          (match bstep b (.hint 0 none) with | .error (.ub _) => true | _ => false)
      | none => false) = true := by decide +kernel
  split at h
  · rename_i tr b bk he
    simp only [Bool.and_eq_true, Bool.not_eq_true'] at h
    obtain ⟨⟨h1, h2⟩, h3⟩ := h
    have := hc (anyDemo_start _ _ _) (plainExecAll_sound he) h1 (mayB_sound (b0 := anyDemo [512] true false) (lax := false) h2)
    rcases this with ⟨resp, b', h4⟩ | ⟨e, ⟨l, sl, rfl, _⟩, h4⟩ <;> rw [h4] at h3 <;> cases h3
  · cases h

/-- One-byte items with destructors, with a size hint of 16. The allocator answers with a block that has room for 20. -/
def longerOps : List BOp :=
  [.fromIter .emplace 4, .hint 2 none] ++ (List.range 20).map (fun k => .next (some (k + 1))) ++
  [.next (some 21), .hint 0 none, .next none]

/-- The second half is false of this code too: in the drop variant, a block longer than asked for is filled to its end
(src/blink.rs:521-523, 540), but `grow` is told the layout asked for (src/blink.rs:508), and need not keep the bytes behind it. Here
the item at position 17 of 21 is uninitialised memory. -/
theorem C82_slices_full_false : ¬ C82_slices_full := by
  intro hc
  have h : (match plainExecAll (anyDemo [44, 2048] false false) (anyDemo [44, 2048] false false) ⟨[], [], []⟩ longerOps with
      | some (_, b, bk) => !b.over && mayB false (anyDemo [44, 2048] false false).types (anyDemo [44, 2048] false false).s.w.held true bk (.next none) &&
          (match bk.frames, bstep b (.next none) with
           | [f], .ok (.slice a n, b') =>
             decide (f.r = 4 ∧ f.got = (List.range 21).map (· + 1) ∧ n = 21) && decide (b'.s.w.mem (a + 17 * 1 + 0) = .uninit)
           | _, _ => false)
      | none => false) = true := by decide +kernel
  split at h
  · rename_i tr b bk he
    simp only [Bool.and_eq_true, Bool.not_eq_true'] at h
    obtain ⟨⟨h1, h2⟩, h3⟩ := h
    split at h3
    · rename_i f a n b' hf hb
      simp only [Bool.and_eq_true, decide_eq_true_eq] at h3
      obtain ⟨⟨h4, h5, rfl⟩, h6⟩ := h3
      have ht : (anyDemo [44, 2048] false false).types f.r = ⟨13, 1, 1, true, true, 1, 1, 0, none⟩ := by rw [h4]; decide
      have := (hc (anyDemo_start _ _ _) (plainExecAll_sound he) h1 (mayB_sound (b0 := anyDemo [44, 2048] false false) (lax := false) h2) hf
        (by rw [ht]; decide) (fun _ _ _ => rfl) hb).2
      rw [ht, h5] at this
      have := this 17 (by decide) 0 (by decide)
      have := h6.symm.trans this
      cases this
    · cases h3
  · cases h

/-! ### What holds -/

/-- C82, without the uses `AKind.Asks` leaves out: over every allocator that meets its contract, every legal action in every
reachable state terminates without undefined behaviour and without failing a debug assertion, unless the allocator hands out memory
that is not fresh or does not fit the request. In particular `Blink` only accesses blocks it was given, gives each back at most once
and with a layout that fits, and grows blocks only to layouts that are not smaller. Missing: iterators of sized items that go on
after `None`, and collecting items to be dropped if the allocator says that a block is longer than asked for, where it is false. -/
theorem C82_no_fault_partial {b0 b : BState} {bk : BBook} {op : BOp} {exact keeps others} (h : BReach b0 b bk)
    (_ : b0.kind = .any exact keeps others) (hl : b0.legal bk op) :
    (∃ resp b', bstep b op = .ok (resp, b')) ∨ ∃ e, BadAnswer b.s.w e ∧ bstep b op = .error e := C56_no_fault h hl

/-- C82: blocks of the allocator that belong to others stay in use and keep their contents; every reference to at least one byte lies
in a block in use, apart from those of others, aligned, and apart from all other references. Missing: as above. -/
theorem C82_blocks_partial {b0 b : BState} {bk : BBook} {exact keeps others} (h : BReach b0 b bk) (hk : b0.kind = .any exact keeps others) :
    (∀ f ∈ b0.s.w.held, f ∈ b.s.w.held ∧ ∀ x, f.addr ≤ x → x < f.addr + f.len → b.s.w.mem x = b0.s.w.mem x) ∧
    (∀ r ∈ bk.refs, r.addr % r.align = 0 ∧ (r.count * r.size ≠ 0 →
      ∃ d ∈ b.s.w.held, d.addr ≤ r.addr ∧ r.addr + r.count * r.size ≤ d.addr + d.len ∧
        ∀ f ∈ b0.s.w.held, ∀ x, r.Has x → x < f.addr ∨ f.addr + f.len ≤ x)) ∧
    bk.refs.Pairwise (fun r s => ∀ x, ¬ (r.Has x ∧ s.Has x)) := by
  obtain ⟨cs, items, hw⟩ := h.wk
  have hi : AnyInv b0.s b.s ([] ++ brest b0 b bk items) := by
    cases hw.inv with
    | arena ha _ => rw [hk] at ha; cases ha
    | any _ _ _ _ h => exact h
  refine ⟨fun f hf => ⟨hi.foreign hf, hi.mem f hf⟩, fun r hr => ⟨(hw.refs_ok hr).1, fun hne => ?_⟩, hw.refs_apart⟩
  rw [hw.refs] at hr
  obtain ⟨it, hit, rfl⟩ := List.mem_map.mp hr
  rcases (hw.ok it hit).inside with h0 | ⟨o, ho, h3, h4⟩
  · exact absurd h0 hne
  · have hm : o ∈ [] ++ brest b0 b bk items :=
      List.mem_append_right _ (List.mem_append_left _ (List.mem_filterMap.mpr ⟨it, hit, ho⟩))
    obtain ⟨d, hd, hc⟩ := hi.get hm
    have := hc.addr; have := hc.len
    exact ⟨d, hd, by omega, by omega, fun f hf x hx => hi.away hm hf ⟨by have := hx.1; omega, by have := hx.2; omega⟩⟩

/-- C82: a slice that `from_iter` returns holds exactly the items yielded, in order. Missing: as above. -/
theorem C82_slices_partial {b0 b b' : BState} {bk bk' : BBook} {exact keeps others f fs x a n} (h : BReach b0 b bk)
    (_ : b0.kind = .any exact keeps others) (hl : b0.legal bk (.next x)) (hf : bk.frames = f :: fs) (ht : (b0.types f.r).tsize ≠ 0)
    (hs : bstep b (.next x) = .ok (.slice a n, b')) (ha : BAfter b0.types b0.kind bk (.next x) (.slice a n) bk') :
    n = (f.got ++ x.toList).length ∧ Holds b'.s.w.mem a (b0.types f.r).tsize (f.got ++ x.toList) :=
  ⟨(C38_partial h hl hf ht hs ha).1, (C38_partial h hl hf ht hs ha).2.1⟩

theorem any_reset_held {exact : Bool} {others : List BaseBlk} {s s' : St} {op : Op} {r : Resp} (hop : op = .reset ∨ op = .resetFinal)
    (h : (AKind.any exact false others).step s op = .ok (r, s')) : s'.w.held = others := by
  rcases hop with rfl | rfl <;>
  · injection h with h
    injection h with _ h
    rw [← h]

/-- C82: when a `Blink` over an allocator of its own (or mutably borrowed) is reset and no destructor panics, or when it is dropped
together with its allocator, every block it obtained is given back, leaked or not. -/
theorem C82_given_back {b0 b b' : BState} {bk : BBook} {op : BOp} {resp : BResp} {exact others} (h : BReach b0 b bk)
    (hk : b0.kind = .any exact false others) (hl : b0.legal bk op)
    (hop : ((op = .reset ∨ op = .send) ∧ resp = .unit) ∨ (op = .dropBlink ∧ resp ≠ .aborted)) (hs : bstep b op = .ok (resp, b')) :
    b'.s.w.held = b0.s.w.held := by
  obtain ⟨cs, items, hw⟩ := h.wk
  have hd : op.drops := by rcases hop with ⟨rfl | rfl, _⟩ | ⟨rfl, _⟩ <;> trivial
  obtain ⟨out, evs, m, b1, e1, _, _, _, _, _, _, _, _, e4, _, e5⟩ := hw.drop hl hd
  rw [e1] at hs
  injection hs with hs
  injection hs with f1 f2
  subst f1 f2
  have ho : others = b0.s.w.held := hw.start.others _ _ _ hk
  have hr : renews b0.kind op out = true := by
    rw [hk]
    rcases hop with ⟨rfl | rfl, hu⟩ | ⟨rfl, hu⟩ <;> cases out <;> first | rfl | (cases hu; done) | exact absurd rfl hu
  obtain ⟨r, hr⟩ := e5 hr
  rw [hk] at hr
  rw [← ho]
  refine any_reset_held ?_ hr
  split
  · exact .inr rfl
  · exact .inl rfl

theorem BSteps.accounted {b0 b : BState} {bk : BBook} {tr exact keeps others} (h0 : BStart b0) (hk : b0.kind = .any exact keeps others)
    (h : BSteps b0 b0.legal b0 ⟨[], [], []⟩ tr b bk)
    (hp : ∀ e ∈ tr, e.1 ≠ .panic ∧ e.1 ≠ .dropAll ∧ (∀ reg, e.2 ≠ .panicked reg) ∧ e.2 ≠ .aborted)
    (hq : keeps = true → ∀ e ∈ tr, e.1 ≠ .reset ∧ e.1 ≠ .send ∧ e.1 ≠ .dropBlink) :
    b.inUse ≤ b0.inUse + b.accounts bk := by
  induction h with
  | nil => exact Nat.le_add_right _ _
  | @snoc tr b1 bk1 op r b2 bk2 h ho hl hs ha ih =>
    have ih := ih (fun e he => hp e (List.mem_append_left _ he)) (fun hk e he => hq hk e (List.mem_append_left _ he))
    have hr : BReach b0 b1 bk1 := ⟨h0, tr, h⟩
    have hm : (op, r) ∈ tr ++ [(op, r)] := List.mem_append_right _ (List.mem_singleton.mpr rfl)
    obtain ⟨p1, p2, p3, p4⟩ := hp _ hm
    by_cases hd : op.drops
    · have hkeep : keeps = false := by
        cases keeps with
        | false => rfl
        | true =>
          obtain ⟨q1, q2, q3⟩ := hq rfl _ hm
          cases op <;> first | exact hd.elim | exact absurd rfl q1 | exact absurd rfl q2 | exact absurd rfl q3 | exact absurd rfl p2
      subst hkeep
      have hu : r = .unit ∨ op = .dropBlink := by
        obtain ⟨cs, items, hw⟩ := hr.wk
        obtain ⟨out, evs, m, b3, e1, _⟩ := hw.drop hl hd
        rw [e1] at hs
        injection hs with hs
        injection hs with f1 f2
        subst f1
        cases out with
        | fine => exact .inl rfl
        | panicked => exact absurd rfl (p3 _)
        | aborted => exact absurd rfl p4
      have hh : b2.s.w.held = b0.s.w.held := by
        refine C82_given_back hr hk hl ?_ hs
        cases op with
        | reset => exact .inl ⟨.inl rfl, hu.resolve_right (by intro hc; cases hc)⟩
        | send => exact .inl ⟨.inr rfl, hu.resolve_right (by intro hc; cases hc)⟩
        | dropBlink => exact .inr ⟨rfl, p4⟩
        | dropAll => exact absurd rfl p2
        | _ => exact hd.elim
      unfold BState.inUse
      rw [hh]
      exact Nat.le_add_right _ _
    · obtain ⟨cs, items, hw⟩ := hr.wk
      have := hw.accounts hk hl hs ha hd p1 p3
      omega

/-- C83: `Blink` keeps no block it does not need. Over every allocator that meets its contract, as long as user code does not panic and
does not have values dropped whose blocks the allocator keeps, there are never more blocks in use than those of others, one for each
reference user code holds, one for each block it asked the allocator for directly, and one for each call that waits for user code. In
particular a call that ends without a reference (closure failed, nothing yielded, no memory) has given back what it took, and a slice
that was moved while it grew has left nothing behind. -/
theorem C83_no_leak {b0 b : BState} {bk : BBook} {tr exact keeps others} (h0 : BStart b0) (hk : b0.kind = .any exact keeps others)
    (h : BSteps b0 b0.legal b0 ⟨[], [], []⟩ tr b bk)
    (hp : ∀ e ∈ tr, e.1 ≠ .panic ∧ e.1 ≠ .dropAll ∧ (∀ reg, e.2 ≠ .panicked reg) ∧ e.2 ≠ .aborted)
    (hq : keeps = true → ∀ e ∈ tr, e.1 ≠ .reset ∧ e.1 ≠ .send ∧ e.1 ≠ .dropBlink) :
    b.s.w.held.length ≤ b0.s.w.held.length + bk.refs.length + bk.direct.length + bk.frames.length := by
  have h1 := h.accounted h0 hk hp hq
  obtain ⟨cs, items, hw⟩ := BReach.wk ⟨h0, tr, h⟩
  have h2 := blksOf_le b.frames
  have h3 : b.frames.length = bk.frames.length := hw.frames.length
  unfold BState.accounts BState.inUse at h1
  omega

/-! ### The hypotheses can be met -/

/-- A value with destructor, one without, an iterator whose `next` emplaces something else, a closure that fails, one that succeeds,
a copy of a block of somebody else, a direct allocation that is grown. -/
def anyOps : List BOp :=
  [.value .emplace 0 ⟨12, 4⟩ 5, .value .noDrop 2 ⟨8, 8⟩ 6, .fromIter .noDrop 4, .hint 2 none] ++
  (List.range 8).map (fun k => .next (some (k + 1))) ++ [.value .emplace 5 ⟨64, 64⟩ 9] ++
  [.next (some 9), .hint 0 none] ++ (List.range 8).map (fun k => .next (some (k + 10)))

def anyOps2 : List BOp :=
  [.next none, .with .emplace 1 ⟨16, 4⟩, .ret (.err 3), .with .emplace 1 ⟨16, 4⟩, .ret (.ok 7), .copySlice 64 4 4 2,
   .direct (.allocate ⟨20, 4⟩), .direct (.resize 589824 ⟨20, 4⟩ ⟨40, 8⟩)]

/-- Over an allocator that says how long its blocks are and over one that does not: a slice of 17 items that had to be moved. -/
example (exact : Bool) : ∃ b0 b b' bk bk' f fs a keeps others, BReach b0 b bk ∧ b0.kind = .any exact keeps others ∧
    b0.legal bk (.next none) ∧ bk.frames = f :: fs ∧ (b0.types f.r).tsize ≠ 0 ∧ bstep b (.next none) = .ok (.slice a 17, b') ∧
    BAfter b0.types b0.kind bk (.next none) (.slice a 17) bk' := by
  obtain ⟨b, bk, r, b', bk', h1, h2, h3, h4, h5, h6⟩ := of_bdemoAt (anyDemo_start [512, 2048, 30, 128, 100] exact true)
    (ops := anyOps) (op := .next none)
    (f := fun _ bk r _ _ => (match r with | .slice _ n => decide (n = 17) | _ => false) &&
      (match bk.frames with | [f] => decide (f.r = 4) | _ => false)) (by cases exact <;> decide +kernel)
  rw [Bool.and_eq_true] at h6
  obtain ⟨g1, g2⟩ := h6
  split at g1
  · rw [decide_eq_true_eq] at g1
    subst g1
    split at g2
    · rename_i f hf
      rw [decide_eq_true_eq] at g2
      exact ⟨_, b, b', bk, bk', f, [], _, _, _, h1, rfl, h3, hf, by rw [g2]; exact (by decide : (typeTable demoTypes 4).tsize ≠ 0), h4, h5⟩
    · cases g2
  · cases g1

/-- A reset and a drop that give back blocks, six references among them. -/
example : ∃ b0 b b' bk exact others, BReach b0 b bk ∧ b0.kind = .any exact false others ∧ b0.legal bk .reset ∧
    bstep b .reset = .ok (.unit, b') ∧ bk.refs.length = 6 ∧ bk.direct.length = 1 ∧ b.s.w.held.length = 8 ∧ b.drops.length = 0 ∧
    b'.drops.length = 3 := by
  obtain ⟨b, bk, r, b', bk', h1, h2, h3, h4, h5, h6⟩ := of_bdemoAt (anyDemo_start [512, 2048, 30, 128, 100, 48, 256, 64, 32, 64] false false)
    (ops := anyOps ++ anyOps2) (op := .reset)
    (f := fun b bk r b' _ => decide (r = .unit ∧ bk.refs.length = 6 ∧ bk.direct.length = 1 ∧ b.s.w.held.length = 8 ∧ b.drops.length = 0 ∧ b'.drops.length = 3)) (by decide +kernel)
  rw [decide_eq_true_eq] at h6
  obtain ⟨rfl, h6⟩ := h6
  exact ⟨_, b, b', bk, _, _, h1, rfl, h3, h4, h6⟩

/-- Histories for C83: `bexecAll` with a check of the result. -/
theorem of_bexecAll {b0 : BState} {ops : List BOp} {f : List (BOp × BResp) → BState → BBook → Bool}
    (h : (match bexecAll b0 false b0 ⟨[], [], []⟩ ops with | some (tr, b, bk) => f tr b bk | none => false) = true) :
    ∃ tr b bk, BSteps b0 b0.legal b0 ⟨[], [], []⟩ tr b bk ∧ f tr b bk = true := by
  split at h
  · rename_i tr b bk he
    exact ⟨tr, b, bk, bexecAll_sound he, h⟩
  · cases h

/-- C83: one foreign block, then six references, a direct block, a failed closure, a slice moved twice, a reset, two more values, a
waiting closure and a waiting iterator: four blocks more than at the start, and no more. -/
example : ∃ b0 b bk tr exact others, BStart b0 ∧ b0.kind = .any exact false others ∧ BSteps b0 b0.legal b0 ⟨[], [], []⟩ tr b bk ∧
    (∀ e ∈ tr, e.1 ≠ .panic ∧ e.1 ≠ .dropAll ∧ (∀ reg, e.2 ≠ .panicked reg) ∧ e.2 ≠ .aborted) ∧ tr.length = 37 ∧
    b0.s.w.held.length = 1 ∧ bk.refs.length = 2 ∧ bk.direct.length = 0 ∧ bk.frames.length = 2 ∧ b.s.w.held.length = 5 := by
  obtain ⟨tr, b, bk, h1, h2⟩ := of_bexecAll (b0 := anyDemo [512, 2048, 30, 128, 100, 48, 256, 64, 32, 64, 512, 128, 512, 512, 512] false false)
    (ops := anyOps ++ anyOps2 ++ [.reset, .value .emplace 0 ⟨12, 4⟩ 5, .value .noDrop 2 ⟨8, 8⟩ 6, .with .emplace 1 ⟨16, 4⟩, .fromIter .noDrop 4, .hint 2 none])
    (f := fun tr b bk => tr.all (fun e => decide (e.1 ≠ .panic ∧ e.1 ≠ .dropAll ∧ e.2 ≠ .aborted) && (match e.2 with | .panicked _ => false | _ => true)) &&
      decide (tr.length = 37 ∧ bk.refs.length = 2 ∧ bk.direct.length = 0 ∧ bk.frames.length = 2 ∧ b.s.w.held.length = 5)) (by decide +kernel)
  simp only [Bool.and_eq_true, List.all_eq_true, decide_eq_true_eq] at h2
  obtain ⟨h2, h3, h4, h5, h6, h7⟩ := h2
  refine ⟨_, b, bk, tr, _, _, anyDemo_start _ _ _, rfl, h1, fun e he => ?_, h3, rfl, h4, h5, h6, h7⟩
  obtain ⟨⟨p1, p2, p3⟩, p4⟩ := h2 e he
  refine ⟨p1, p2, fun reg hc => ?_, p3⟩
  rw [hc] at p4
  cases p4

/-- Why panics are excluded in C83: after a closure panicked, the block meant for its result stays in use until the allocator is
reset, though nobody has a reference to it. -/
theorem C83_panic_leaks : ∃ b0 b bk tr exact others, BStart b0 ∧ b0.kind = .any exact false others ∧
    BSteps b0 b0.legal b0 ⟨[], [], []⟩ tr b bk ∧
    b0.s.w.held.length + bk.refs.length + bk.direct.length + bk.frames.length < b.s.w.held.length := by
  obtain ⟨tr, b, bk, h1, h2⟩ := of_bexecAll (b0 := anyDemo [512] false false) (ops := [.with .emplace 1 ⟨16, 4⟩, .panic])
    (f := fun _ b bk => decide (1 + bk.refs.length + bk.direct.length + bk.frames.length < b.s.w.held.length)) (by decide +kernel)
  exact ⟨_, b, bk, tr, _, _, anyDemo_start _ _ _, rfl, h1, of_decide_eq_true h2⟩

end Blink
