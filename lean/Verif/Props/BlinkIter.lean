import Verif.Proofs.BlinkCount
import Verif.Spec.BlinkExec
/-
  Property theorems about `Blink::…::from_iter` and `collect_to_blink`: C38, C39, C42, C43.

  An iterator is user code: when a waiting call asks for `size_hint`, `next` or `nth`, any answer is possible, and between two
  answers user code may use the same `Blink`. `f.got` is the list of items the iterator of the waiting call `f` has yielded.
-/
namespace Blink

/-! ### C38 -/

/-- C38 in full: in histories of safe code, a slice that `from_iter` returns holds exactly the items yielded, in order. -/
def C38_full : Prop :=
  ∀ {b0 b b' : BState} {bk : BBook} {f fs x a n}, BReachSafe b0 b bk → b.over = false → b0.safe bk (.next x) → bk.frames = f :: fs →
    (b0.types f.r).tsize ≠ 0 → bstep b (.next x) = .ok (.slice a n, b') →
    n = (f.got ++ x.toList).length ∧ Holds b'.s.w.mem a (b0.types f.r).tsize (f.got ++ x.toList)

/-- An iterator of one-byte items that returns `None` once and then goes on. The capacity of the first block is exhausted by the
item after the `None`, the block cannot grow in place, and `grow` copies only the bytes of the old *layout*. -/
def resumeOps : List BOp :=
  [.fromIter .emplace 4, .hint 20 none, .next (some 1), .next none, .next (some 2), .hint 0 none] ++
  (List.range 18).map (fun k => .next (some (k + 3))) ++ [.direct (.allocate ⟨8, 8⟩), .next (some 21), .hint 0 none]

/-- C38 in full is false of this code: if the iterator yields items after `None`, `fill` asks for a smaller layout than the block
has (src/blink.rs:483-521), and a later `grow` loses items. Here the items at positions 17, 18 and 19 are uninitialised memory. -/
theorem C38_full_false : ¬ C38_full := by
  intro hc
  obtain ⟨b, bk, r, b', bk', h1, h2, h3, h4, _, h6⟩ := of_bdemoAt_safe (bdemo_start [2048, 4096, 8192] .owned [] true)
    (ops := resumeOps ++ [.next none]) (op := .next none)
    (f := fun _ bk r b' _ => decide (r = .slice 65648 21 ∧ b'.s.w.mem (65648 + 17 * 1 + 0) = .uninit) &&
      (match bk.frames with | [f] => decide (f.r = 4 ∧ f.got = (List.range 21).map (· + 1)) | _ => false)) (by decide +kernel)
  rw [Bool.and_eq_true, decide_eq_true_eq] at h6
  obtain ⟨⟨rfl, g2⟩, g3⟩ := h6
  split at g3
  · rename_i f hf
    rw [decide_eq_true_eq] at g3
    have ht : (bdemo [2048, 4096, 8192] .owned [] true).types f.r = ⟨13, 1, 1, true, true, 1, 1, 0, none⟩ := by
      rw [g3.1]; decide
    have := (hc h1 h2 h3 hf (by rw [ht]; decide) h4).2
    rw [ht, g3.2] at this
    have := this 17 (by decide) 0 (by decide)
    have := g2.symm.trans this
    cases this
  · cases g3

/-- C38, for iterators that stay exhausted after `None` (needed in the drop variant only): a slice that `from_iter` returns has as
many elements as the iterator has yielded, holds exactly these items in order, and is what user code now holds. Size hints are
arbitrary, and so is what user code does with the same `Blink` between two items. Missing: iterators that yield items after
`None` in the drop variant, where it is false. -/
theorem C38_partial {b0 b b' : BState} {bk bk' : BBook} {f fs x a n} (h : BReach b0 b bk) (hl : b0.legal bk (.next x))
    (hf : bk.frames = f :: fs) (ht : (b0.types f.r).tsize ≠ 0) (hs : bstep b (.next x) = .ok (.slice a n, b'))
    (ha : BAfter b0.types b0.kind bk (.next x) (.slice a n) bk') :
    n = (f.got ++ x.toList).length ∧ Holds b'.s.w.mem a (b0.types f.r).tsize (f.got ++ x.toList) ∧
    bk'.refs = if n = 0 then bk.refs else ⟨(b0.types f.r).tid, a, (b0.types f.r).tsize, (b0.types f.r).talign, n, !f.nd⟩ :: bk.refs := by
  obtain ⟨cs, items, hw⟩ := h.wk
  rcases hw.retStep rfl hl.1 hl.2 hf (by simp) with ⟨_, _, he⟩ | ⟨resp, b1, cs', items', e1, _, _, _, e4, _⟩
  · rw [he] at hs; cases hs
  rw [e1] at hs
  injection hs with hs
  injection hs with f1 f2
  subst f1 f2
  unfold Told at e4
  simp only [if_neg ht] at e4
  refine ⟨e4.1, e4.2, ?_⟩
  rw [ha.refs]
  have hb : bookAfter b0.types b0.kind bk (.next x) (.slice a n) = ({ bk with frames := fs } : BBook).pushSlice (b0.types f.r) f.nd a n :=
    bookAfter_ret rfl hf
  rw [hb]
  unfold BBook.pushSlice
  by_cases hn : n = 0
  · rw [if_pos ⟨hn, ht⟩, if_pos hn]
  · rw [if_neg (fun hc => hn hc.1), if_neg hn]
    rfl

/-- The hypotheses of C38 are met by an iterator that claims to yield 2 items, yields 12, and whose fifth `next` emplaces something
else into the same `Blink`, so that the items have to be moved to another chunk. -/
example : ∃ b0 b b' bk bk' f fs a, BReach b0 b bk ∧ b0.legal bk (.next none) ∧ bk.frames = f :: fs ∧ (b0.types f.r).tsize ≠ 0 ∧
    bstep b (.next none) = .ok (.slice a 12, b') ∧ BAfter b0.types b0.kind bk (.next none) (.slice a 12) bk' ∧ f.nd = false := by
  obtain ⟨b, bk, r, b', bk', h1, h2, h3, h4, h5, h6⟩ := of_bdemoAt (bdemo_start [512, 2048, 4096] .owned [] true)
    (ops := [.fromIter .emplace 0, .hint 2 (some 1)] ++ [5, 6, 7, 8].map (fun v => .next (some v)) ++ [.value .emplace 5 ⟨64, 64⟩ 9] ++
      [9, 10, 11, 12, 13].map (fun v => .next (some v)) ++ [.hint 0 none] ++ [14, 15, 16].map (fun v => .next (some v)) ++ [.next none])
    (op := .next none)
    (f := fun _ bk r _ _ => (match r with | .slice _ n => decide (n = 12) | _ => false) &&
      (match bk.frames with | [f] => decide (f.r = 0 ∧ f.nd = false) | _ => false)) (by decide +kernel)
  rw [Bool.and_eq_true] at h6
  obtain ⟨g1, g2⟩ := h6
  split at g1
  · rw [decide_eq_true_eq] at g1
    subst g1
    split at g2
    · rename_i f hf
      rw [decide_eq_true_eq] at g2
      exact ⟨_, b, b', bk, bk', f, [], _, h1, h3, hf, by rw [g2.1]; decide, h4, h5, g2.2⟩
    · cases g2
  · cases g1

/-! ### C39 -/

/-- C39 in full: in histories of safe code, when memory runs out the items yielded are those in the returned slice followed by the
one handed back; when the iterator panics in the drop variant, they are those in the slice registered for dropping followed by the
one that is dropped while unwinding. -/
def C39_full : Prop :=
  ∀ {b0 b b' : BState} {bk : BBook} {f fs a n}, BReachSafe b0 b bk → b.over = false → bk.frames = f :: fs → (b0.types f.r).tsize ≠ 0 →
    (∀ l u x, b0.safe bk (.hint l u) → bstep b (.hint l u) = .ok (.iterErr a n x, b') →
      ∃ vs, f.got = vs ++ x.toList ∧ n = vs.length ∧ Holds b'.s.w.mem a (b0.types f.r).tsize vs) ∧
    (b0.safe bk .panic → bstep b .panic = .ok (.panicked (some (a, n)), b') →
      ∃ vs, f.got = vs ++ f.pending ∧ n = vs.length ∧ Holds b'.s.w.mem a (b0.types f.r).tsize vs)

/-- C39 in full is false of this code, for the reason given in `C38_full_false`: here the iterator panics, and the slice registered
for dropping contains uninitialised memory. -/
theorem C39_full_false : ¬ C39_full := by
  intro hc
  obtain ⟨b, bk, r, b', bk', h1, h2, h3, h4, _, h6⟩ := of_bdemoAt_safe (bdemo_start [2048, 4096, 8192] .owned [] true)
    (ops := resumeOps) (op := .panic)
    (f := fun _ bk r b' _ => decide (r = .panicked (some (65648, 21)) ∧ b'.s.w.mem (65648 + 17 * 1 + 0) = .uninit) &&
      (match bk.frames with | [f] => decide (f.r = 4 ∧ f.pending = []) | _ => false)) (by decide +kernel)
  rw [Bool.and_eq_true, decide_eq_true_eq] at h6
  obtain ⟨⟨rfl, g2⟩, g3⟩ := h6
  split at g3
  · rename_i f hf
    rw [decide_eq_true_eq] at g3
    have ht : (bdemo [2048, 4096, 8192] .owned [] true).types f.r = ⟨13, 1, 1, true, true, 1, 1, 0, none⟩ := by
      rw [g3.1]; decide
    obtain ⟨vs, _, k2, k3⟩ := (hc h1 h2 hf (by rw [ht]; decide)).2 h3 h4
    rw [ht] at k3
    have := k3 17 (by rw [← k2]; decide) 0 (by decide)
    have := g2.symm.trans this
    cases this
  · cases g3

/-- C39, for iterators that stay exhausted after `None` (needed in the drop variant only): when memory runs out, the items yielded
are those in the returned slice, in order, followed by the one handed back, if any. The slice is what user code now holds, and no
destructor ran. Missing: iterators that yield items after `None` in the drop variant, where it is false. -/
theorem C39_error_partial {b0 b b' : BState} {bk bk' : BBook} {f fs l u a n x} (h : BReach b0 b bk) (hl : b0.legal bk (.hint l u))
    (hf : bk.frames = f :: fs) (ht : (b0.types f.r).tsize ≠ 0) (hs : bstep b (.hint l u) = .ok (.iterErr a n x, b'))
    (ha : BAfter b0.types b0.kind bk (.hint l u) (.iterErr a n x) bk') :
    (∃ vs, f.got = vs ++ x.toList ∧ n = vs.length ∧ Holds b'.s.w.mem a (b0.types f.r).tsize vs) ∧ b'.drops = b.drops ∧
    bk'.refs = if n = 0 then bk.refs else ⟨(b0.types f.r).tid, a, (b0.types f.r).tsize, (b0.types f.r).talign, n, !f.nd⟩ :: bk.refs := by
  obtain ⟨cs, items, hw⟩ := h.wk
  rcases hw.retStep rfl hl.1 hl.2 hf (by simp) with ⟨_, _, he⟩ | ⟨resp, b1, cs', items', e1, e2, _, _, e4, _⟩
  · rw [he] at hs; cases hs
  rw [e1] at hs
  injection hs with hs
  injection hs with f1 f2
  subst f1 f2
  refine ⟨e4, e2, ?_⟩
  rw [ha.refs]
  have hb : bookAfter b0.types b0.kind bk (.hint l u) (.iterErr a n x) = ({ bk with frames := fs } : BBook).pushSlice (b0.types f.r) f.nd a n :=
    bookAfter_ret rfl hf
  rw [hb]
  unfold BBook.pushSlice
  by_cases hn : n = 0
  · rw [if_pos ⟨hn, ht⟩, if_pos hn]
  · rw [if_neg (fun hc => hn hc.1), if_neg hn]
    rfl

/-- In the drop variant, a panic of the iterator ends with a registered slice or an abort. -/
theorem Wk.panicSized {b0 b bk cs items K m0} {f : FBook} {fs : List FBook} {resp : BResp} {b' : BState}
    (h : Wk b0 b bk cs items [] K m0) (hf : bk.frames = f :: fs) (ht : (b0.types f.r).tsize ≠ 0) (hq : f.ask ≠ .closure)
    (hs : bstep b .panic = .ok (resp, b')) (hnd : f.nd = false) : resp ≠ .panicked none := by
  obtain ⟨fr, frs, hfr⟩ := h.frames_cons (by rw [hf]; simp)
  have hok := h.frames
  rw [hf, hfr] at hok
  have hok := hok.1
  rw [bstep_ret rfl hfr] at hs
  cases fr with
  | init r nd re blk => exact absurd hok.ask hq
  | drain r nd blk d ph =>
    have h1 := (h.start.types r).plain hok.plain
    have h2 := hok.sz
    rw [hok.r_] at ht
    omega
  | iter r nd g ph =>
    obtain ⟨vs, hok⟩ := hok
    have hn : nd = false := hok.nd_.symm.trans hnd
    subst hn
    unfold BState.resume at hs
    dsimp only at hs
    have key : ∀ (p : Bool) (b1 : BState),
        (if p then pure (.aborted, { b1 with over := true })
         else if false = true then pure (.panicked none, b1)
         else do
           let ((a, n), b2) ← b1.flush r false g
           pure (.panicked (some (a, n)), b2) : Except Fault (BResp × BState)) = .ok (resp, b') → resp ≠ .panicked none := by
      intro p b1 hs
      cases p with
      | true =>
        rw [if_pos rfl] at hs
        injection hs with hs
        injection hs with h1 _
        rw [← h1]
        simp
      | false =>
        rw [if_neg (by simp), if_neg (by simp)] at hs
        obtain ⟨⟨⟨a, n⟩, b1⟩, _, hs⟩ := ebind_split hs
        injection hs with hs
        injection hs with h1 _
        rw [← h1]
        simp
    unfold BState.iterPanic at hs
    exact key _ _ hs

/-- C39, with the same restriction: when the iterator panics, the item that was taken but not stored, if any, is dropped while
unwinding, and nothing else is. Unless that destructor panics too (then the process aborts), in the drop variant the items yielded
are those of a slice which is now registered for dropping, in order, followed by that item. -/
theorem C39_panic_partial {b0 b b' : BState} {bk bk' : BBook} {f fs resp} (h : BReach b0 b bk) (hl : b0.legal bk .panic)
    (hf : bk.frames = f :: fs) (ht : (b0.types f.r).tsize ≠ 0) (hq : f.ask ≠ .closure) (hnd : f.nd = false)
    (hs : bstep b .panic = .ok (resp, b')) (ha : BAfter b0.types b0.kind bk .panic resp bk') :
    b'.drops = (f.pending.flatMap fun v => if (b0.types f.r).drop then [DropEv.loose (b0.types f.r).tid v] else []) ++ b.drops ∧
    (resp = .aborted ∨
     ∃ a vs, resp = .panicked (some (a, vs.length)) ∧ f.got = vs ++ f.pending ∧ Holds b'.s.w.mem a (b0.types f.r).tsize vs ∧
       bk'.refs = if vs = [] then bk.refs
         else ⟨(b0.types f.r).tid, a, (b0.types f.r).tsize, (b0.types f.r).talign, vs.length, true⟩ :: bk.refs) := by
  obtain ⟨cs, items, hw⟩ := h.wk
  have hnn := hw.panicSized hf ht hq hs hnd
  rcases hw.retStep rfl hl.1 hl.2 hf (by simp) with ⟨_, _, he⟩ | ⟨resp, b1, cs', items', e1, e2, _, _, e4, e5⟩
  · rw [he] at hs; cases hs
  rw [e1] at hs
  injection hs with hs
  injection hs with f1 f2
  subst f1 f2
  refine ⟨?_, ?_⟩
  · rw [e2]
    unfold inFlight
    rw [if_neg ht]
    rfl
  · rcases e5 with e5 | e5 | ⟨_, a, n, e5⟩
    · exact .inl e5
    · exact absurd e5 hnn
    · subst e5
      obtain ⟨vs, g1, g2, g3⟩ := e4
      right
      subst g2
      refine ⟨a, vs, rfl, g1, g3, ?_⟩
      rw [ha.refs]
      have hb : bookAfter b0.types b0.kind bk .panic (.panicked (some (a, vs.length))) =
          ({ bk with frames := fs } : BBook).pushSlice (b0.types f.r) f.nd a vs.length := bookAfter_ret rfl hf
      rw [hb, hnd]
      unfold BBook.pushSlice
      by_cases hn : vs = []
      · rw [if_pos ⟨by rw [hn]; rfl, ht⟩, if_pos hn]
      · rw [if_neg (fun hc => hn (List.length_eq_zero_iff.mp hc.1)), if_neg hn]
        rfl

/-- C39, with the same restriction: no value of a sized type is dropped twice. In any history, the number of destructor runs on
values of type `tid`, in the arena or not, plus the number of such values still registered for dropping, is at most the number of
such values handed over by user code. -/
theorem C39_never_twice_partial {b0 b : BState} {bk : BBook} {tr tid} (h0 : BStart b0) (h : BSteps b0 b0.legal b0 ⟨[], [], []⟩ tr b bk)
    (hsz : ∀ r, (b0.types r).tid = tid → (b0.types r).tsize ≠ 0) :
    runs tid b.drops + toDrop tid bk.refs ≤ handed b0.types tid ⟨[], [], []⟩ tr := by
  have := at_most_once h0 h hsz
  omega

/-- The hypotheses of C39 (memory runs out) are met with eight items in the slice and one handed back. -/
example : ∃ b0 b b' bk bk' f fs a, BReach b0 b bk ∧ b0.legal bk (.hint 0 none) ∧ bk.frames = f :: fs ∧ (b0.types f.r).tsize ≠ 0 ∧
    bstep b (.hint 0 none) = .ok (.iterErr a 8 (some 13), b') ∧ BAfter b0.types b0.kind bk (.hint 0 none) (.iterErr a 8 (some 13)) bk' ∧
    f.nd = false := by
  obtain ⟨b, bk, r, b', bk', h1, h2, h3, h4, h5, h6⟩ := of_bdemoAt (bdemo_start [512, 0] .owned [] true)
    (ops := [.fromIter .emplace 0, .hint 2 (some 1)] ++ [5, 6, 7, 8].map (fun v => .next (some v)) ++ [.value .emplace 5 ⟨64, 64⟩ 9] ++
      [9, 10, 11, 12, 13].map (fun v => .next (some v))) (op := .hint 0 none)
    (f := fun _ bk r _ _ => (match r with | .iterErr _ n x => decide (n = 8 ∧ x = some 13) | _ => false) &&
      (match bk.frames with | [f] => decide (f.r = 0 ∧ f.nd = false) | _ => false)) (by decide +kernel)
  rw [Bool.and_eq_true] at h6
  obtain ⟨g1, g2⟩ := h6
  split at g1
  · rw [decide_eq_true_eq] at g1
    obtain ⟨rfl, rfl⟩ := g1
    split at g2
    · rename_i f hf
      rw [decide_eq_true_eq] at g2
      exact ⟨_, b, b', bk, bk', f, [], _, h1, h3, hf, by rw [g2.1]; decide, h4, h5, g2.2⟩
    · cases g2
  · cases g1

/-- The hypotheses of C39 (panic) are met by a `size_hint` that panics when eight items are stored and one is not. -/
example : ∃ b0 b b' bk bk' f fs a, BReach b0 b bk ∧ b0.legal bk .panic ∧ bk.frames = f :: fs ∧ (b0.types f.r).tsize ≠ 0 ∧
    f.ask ≠ .closure ∧ f.nd = false ∧ bstep b .panic = .ok (.panicked (some (a, 8)), b') ∧
    BAfter b0.types b0.kind bk .panic (.panicked (some (a, 8))) bk' ∧ f.pending = [13] := by
  obtain ⟨b, bk, r, b', bk', h1, h2, h3, h4, h5, h6⟩ := of_bdemoAt (bdemo_start [512, 2048] .owned [] true)
    (ops := [.fromIter .emplace 0, .hint 2 (some 1)] ++ [5, 6, 7, 8, 9, 10, 11, 12, 13].map (fun v => .next (some v))) (op := .panic)
    (f := fun _ bk r _ _ => (match r with | .panicked (some (_, n)) => decide (n = 8) | _ => false) &&
      (match bk.frames with | [f] => decide (f.r = 0 ∧ f.nd = false ∧ f.ask ≠ .closure ∧ f.pending = [13]) | _ => false)) (by decide +kernel)
  rw [Bool.and_eq_true] at h6
  obtain ⟨g1, g2⟩ := h6
  split at g1
  · rw [decide_eq_true_eq] at g1
    subst g1
    split at g2
    · rename_i f hf
      rw [decide_eq_true_eq] at g2
      exact ⟨_, b, b', bk, bk', f, [], _, h1, h3, hf, by rw [g2.1]; decide, g2.2.2.1, g2.2.1, h4, h5, g2.2.2.2⟩
    · cases g2
  · cases g1

/-! ### C42 -/

/-- C42 in full: in histories of safe code, values are not dropped more than once: the number of destructor runs on values of type
`tid` plus the number of those registered for dropping is at most the number of values handed over; and no action fails (unless the
allocator below misbehaves). -/
def C42_full : Prop :=
  (∀ {b0 b : BState} {bk : BBook} {tr tid}, BStart b0 → BSteps b0 b0.safe b0 ⟨[], [], []⟩ tr b bk →
    runs tid b.drops + toDrop tid bk.refs ≤ handed b0.types tid ⟨[], [], []⟩ tr) ∧
  ∀ {b0 b : BState} {bk : BBook}, BReachSafe b0 b bk → b.over = false → b0.safe bk (.next none) → bk.frames ≠ [] →
    (∃ resp b', bstep b (.next none) = .ok (resp, b')) ∨ ∃ e, BadAnswer b.s.w e ∧ bstep b (.next none) = .error e

/-- C42: items of zero size are dropped twice by this code: once when `saturating_drain_iter` takes them from the iterator
(src/blink.rs:1456-1474), and once more when the `Blink` is reset (src/blink.rs:420-423). Here one item, with one destructor run
done and one pending. -/
theorem C42_twice : ∃ b0 tr b bk, BStart b0 ∧ BSteps b0 b0.legal b0 ⟨[], [], []⟩ tr b bk ∧
    handed b0.types 12 ⟨[], [], []⟩ tr = 1 ∧ runs 12 b.drops = 1 ∧ toDrop 12 bk.refs = 1 := by
  have h : (match bexecAll (bdemo [512, 2048] .owned [] true) false (bdemo [512, 2048] .owned [] true) ⟨[], [], []⟩
      [.fromIter .emplace 3, .hint 0 none, .next (some 4), .hint 0 none, .next none] with
    | none => false
    | some (tr, b, bk) => decide (handed (bdemo [512, 2048] .owned [] true).types 12 ⟨[], [], []⟩ tr = 1 ∧ runs 12 b.drops = 1 ∧
        toDrop 12 bk.refs = 1)) = true := by decide +kernel
  split at h
  · cases h
  · rename_i tr b bk h1
    rw [decide_eq_true_eq] at h
    exact ⟨_, tr, b, bk, bdemo_start _ _ _ _, bexecAll_sound (lax := false) h1, h⟩

/-- C42: in debug builds, an empty iterator of zero-sized items with destructor violates the assertion `count != 0` in `init_slice`
(src/drop_list.rs). -/
theorem C42_empty_debug : ∃ b0 b bk e, BReachSafe b0 b bk ∧ b.over = false ∧ b0.safe bk (.next none) ∧ bk.frames ≠ [] ∧
    ¬ BadAnswer b.s.w e ∧ bstep b (.next none) = .error e := by
  obtain ⟨b, bk, e, h1, h2, h3, h4, h5⟩ := of_bdemoFault_safe (bdemo_start [512, 2048] .owned [] true)
    (ops := [.fromIter .emplace 3, .hint 0 none]) (op := .next none)
    (f := fun _ bk e => decide (bk.frames ≠ []) && (match e with | .dbg _ => true | _ => false)) (by decide +kernel)
  rw [Bool.and_eq_true, decide_eq_true_eq] at h5
  refine ⟨_, b, bk, e, h1, h2, h3, h5.1, ?_, h4⟩
  rintro ⟨l, sl, h6, _⟩
  rw [h6] at h5
  exact absurd h5.2 (by simp)

theorem C42_full_false : ¬ C42_full := by
  rintro ⟨hc, _⟩
  obtain ⟨b0, tr, b, bk, h1, h2, h3, h4, h5⟩ := C42_twice
  have : BSteps b0 b0.safe b0 ⟨[], [], []⟩ tr b bk := by
    clear h3 h4 h5
    induction h2 with
    | nil => exact .nil
    | snoc _ ho hl hs ha ih => exact ih.snoc ho (.inl hl.1) hs ha
  have := hc (tid := 12) h1 this
  omega

/-- C42, what holds: when an iterator of zero-sized items answers, the item it hands over is dropped at once (if its type has drop
glue), and no other destructor runs. When the call returns a slice, nothing of it will be dropped in the no-drop variant or if the type
has no drop glue; in the drop variant `n` more destructor runs are registered. So with drop glue the items are dropped at least
once. Missing: "exactly once" (false, `C42_twice`), and in the no-drop variant "never" (false, the item is dropped here). -/
theorem C42_partial {b0 b b' : BState} {bk bk' : BBook} {f fs op x resp} (h : BReach b0 b bk) (hop : op = .next x ∨ op = .nth x)
    (hl : b0.legal bk op) (hf : bk.frames = f :: fs) (ht : (b0.types f.r).tsize = 0) (hs : bstep b op = .ok (resp, b'))
    (ha : BAfter b0.types b0.kind bk op resp bk') :
    b'.drops = (if (b0.types f.r).drop then x.toList.map (DropEv.loose (b0.types f.r).tid) else []) ++ b.drops ∧
    (∀ a n, resp = .slice a n → bk'.refs = ⟨(b0.types f.r).tid, a, 0, (b0.types f.r).talign, n, !f.nd⟩ :: bk.refs) ∧
    ((∀ a n, resp ≠ .slice a n) → bk'.refs = bk.refs) := by
  obtain ⟨cs, items, hw⟩ := h.wk
  have hr : op.isRet = true := by rcases hop with rfl | rfl <;> rfl
  have hnd : (f.tell op).nd = f.nd ∧ (f.tell op).r = f.r := by
    rcases hop with rfl | rfl
    · exact ⟨rfl, rfl⟩
    · simp only [FBook.tell]; split <;> exact ⟨rfl, rfl⟩
  rcases hw.retStep hr hl.1 hl.2 hf (by simp) with ⟨_, _, he⟩ | ⟨resp, b1, cs', items', e1, e2, _, _, e4, e5⟩
  · rw [he] at hs; cases hs
  rw [e1] at hs
  injection hs with hs
  injection hs with f1 f2
  subst f1 f2
  have hb : bk'.refs = (({ bk with frames := fs } : BBook).land b0.types (f.tell op) resp).refs := by
    rw [ha.refs, bookAfter_ret hr hf]
  refine ⟨?_, ?_, ?_⟩
  · rw [e2]
    congr 1
    rcases hop with rfl | rfl <;> cases x <;> simp [inFlight, ht, RTy.loose]
  · intro a n hx
    subst hx
    rw [hb]
    simp only [BBook.land, BBook.pushSlice]
    rw [if_neg (by rw [hnd.2]; exact fun hc => hc.2 ht), hnd.1, hnd.2]
    simp only [BBook.push, RTy.ref, ht]
  · intro hx
    rw [hb]
    have e5' : (∃ q, resp = .wait q) ∨ (∃ a n, resp = .slice a n) ∨ resp = .panicked none := by
      rcases hop with rfl | rfl <;> rcases e5 with e5 | e5 | e5
      · exact .inl e5
      · exact .inr (.inl e5)
      · exact .inr (.inr e5.1)
      · exact .inl e5
      · exact .inr (.inl e5)
      · exact .inr (.inr e5.1)
    rcases e5' with ⟨q, rfl⟩ | ⟨a, n, rfl⟩ | rfl
    · rfl
    · exact absurd rfl (hx a n)
    · rfl

/-- The hypotheses of C42 are met at the end of a collection of two items in the drop variant, in a debug build. -/
example : ∃ b0 b b' bk bk' f fs a, BReach b0 b bk ∧ b0.legal bk (.next none) ∧ bk.frames = f :: fs ∧ (b0.types f.r).tsize = 0 ∧
    bstep b (.next none) = .ok (.slice a 2, b') ∧ BAfter b0.types b0.kind bk (.next none) (.slice a 2) bk' ∧ f.nd = false ∧
    b0.s.w.debug = true := by
  obtain ⟨b, bk, r, b', bk', h1, h2, h3, h4, h5, h6⟩ := of_bdemoAt (bdemo_start [512, 2048] .owned [] true)
    (ops := [.fromIter .emplace 3, .hint 0 none, .next (some 4), .hint 0 none, .next (some 5), .hint 0 none]) (op := .next none)
    (f := fun _ bk r _ _ => (match r with | .slice _ n => decide (n = 2) | _ => false) &&
      (match bk.frames with | [f] => decide (f.r = 3 ∧ f.nd = false) | _ => false)) (by decide +kernel)
  rw [Bool.and_eq_true] at h6
  obtain ⟨g1, g2⟩ := h6
  split at g1
  · rw [decide_eq_true_eq] at g1
    subst g1
    split at g2
    · rename_i f hf
      rw [decide_eq_true_eq] at g2
      exact ⟨_, b, b', bk, bk', f, [], _, h1, h3, hf, by rw [g2.1]; decide, h4, h5, g2.2, rfl⟩
    · cases g2
  · cases g1

/-! ### C43 -/

/-- C43 in full: `saturating_drain_iter` counts the items taken, up to `usize::MAX`. (`taken` counts one item per successful `next`
and `k + 1` items per successful `nth(k)`; an `nth` that fails although the lower bound promised success ends the count.) -/
def C43_full : Prop :=
  ∀ {b0 b b' : BState} {bk : BBook} {f fs op x a n}, BReachSafe b0 b bk → b.over = false → (op = .next x ∨ op = .nth x) → b0.safe bk op →
    bk.frames = f :: fs → (b0.types f.r).tsize = 0 → bstep b op = .ok (.slice a n, b') → n = min (f.tell op).taken (USIZE - 1)

/-- C43 in full is false of this code: after `next`, the count is not compared with `usize::MAX` (src/blink.rs:1456-1462), so in
release builds it wraps around. Here `2^64` items are counted as 0, with honest size hints. -/
theorem C43_full_false : ¬ C43_full := by
  intro hc
  obtain ⟨b, bk, r, b', bk', h1, h2, h3, h4, _, h6⟩ := of_bdemoAt_safe (bdemo_start [512, 2048] .owned [] false)
    (ops := [.fromIter .emplace 3, .hint (USIZE - 2) none, .nth (some 1), .hint 0 none, .next (some 2), .hint 0 none, .next (some 3),
      .hint 0 none]) (op := .next none)
    (f := fun _ bk r _ _ => (match r with | .slice _ n => decide (n = 0) | _ => false) &&
      (match bk.frames with | [f] => decide (f.r = 3 ∧ f.taken = USIZE) | _ => false)) (by decide +kernel)
  rw [Bool.and_eq_true] at h6
  obtain ⟨g1, g2⟩ := h6
  split at g1
  · rw [decide_eq_true_eq] at g1
    subst g1
    split at g2
    · rename_i f hf
      rw [decide_eq_true_eq] at g2
      have := hc h1 h2 (x := none) (.inl rfl) h3 hf (by rw [g2.1]; decide) h4
      simp only [FBook.tell, Option.given, g2.2] at this
      omega
    · cases g2
  · cases g1

/-- C43, up to `usize::MAX` items: the length of the slice is the number of items taken from the iterator, whatever its size hints.
In any case the length fits into a `usize`. Missing: more than `usize::MAX` items, where it is false. -/
theorem C43_partial {b0 b b' : BState} {bk : BBook} {f fs op x a n} (h : BReach b0 b bk) (hop : op = .next x ∨ op = .nth x)
    (hl : b0.legal bk op) (hf : bk.frames = f :: fs) (ht : (b0.types f.r).tsize = 0) (hs : bstep b op = .ok (.slice a n, b')) :
    n < USIZE ∧ ((f.tell op).taken < USIZE → n = (f.tell op).taken) := by
  obtain ⟨cs, items, hw⟩ := h.wk
  have hr : op.isRet = true := by rcases hop with rfl | rfl <;> rfl
  rcases hw.retStep hr hl.1 hl.2 hf (by simp) with ⟨_, _, he⟩ | ⟨resp, b1, cs', items', e1, _, _, _, e4, _⟩
  · rw [he] at hs; cases hs
  rw [e1] at hs
  injection hs with hs
  injection hs with f1 f2
  subst f1 f2
  unfold Told at e4
  simp only [if_pos ht] at e4
  subst e4
  exact ⟨Nat.mod_lt _ (by decide), fun hlt => Nat.mod_eq_of_lt hlt⟩

/-- C43: the count reaches `usize::MAX` and stops there if the lower bounds are used. -/
example : ∃ b0 b b' bk f fs a, BReach b0 b bk ∧ b0.legal bk (.nth (some 1)) ∧ bk.frames = f :: fs ∧ (b0.types f.r).tsize = 0 ∧
    bstep b (.nth (some 1)) = .ok (.slice a (USIZE - 1), b') ∧ (f.tell (.nth (some 1))).taken = USIZE - 1 := by
  obtain ⟨b, bk, r, b', bk', h1, h2, h3, h4, h5, h6⟩ := of_bdemoAt (bdemo_start [512, 2048] .owned [] true)
    (ops := [.fromIter .emplace 3, .hint 0 none, .next (some 4), .hint (USIZE - 1) none]) (op := .nth (some 1))
    (f := fun _ bk r _ _ => (match r with | .slice _ n => decide (n = USIZE - 1) | _ => false) &&
      (match bk.frames with | [f] => decide (f.r = 3 ∧ (f.tell (.nth (some 1))).taken = USIZE - 1) | _ => false)) (by decide +kernel)
  rw [Bool.and_eq_true] at h6
  obtain ⟨g1, g2⟩ := h6
  split at g1
  · rw [decide_eq_true_eq] at g1
    subst g1
    split at g2
    · rename_i f hf
      rw [decide_eq_true_eq] at g2
      exact ⟨_, b, b', bk, f, [], _, h1, h3, hf, by rw [g2.1]; decide, h4, g2.2⟩
    · cases g2
  · cases g1

end Blink
