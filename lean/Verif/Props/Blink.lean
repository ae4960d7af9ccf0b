import Verif.Proofs.BlinkHist
import Verif.Spec.BlinkExec
/-
  Property theorems about `Blink`: C33–C37, C40, C41, C44–C47, C55, C56.

  `BReach b0 b bk` (Verif/Spec/Blink.lean): `b` is reached from a fresh `Blink` over a fresh allocator in state `b0` by an
  arbitrary history of legal actions, with an arbitrary underlying allocator, arbitrary types, arbitrary iterators and
  closures (which may use the same `Blink` while they run) and arbitrary destructors; user code now holds `bk`.
-/
namespace Blink

/-! ### A concrete history used to show that hypotheses can be met -/

/-- A value with destructor, one without, an iterator whose `next` emplaces an over-aligned value into the same `Blink`, a
closure that fails, one that succeeds, a copy, a block allocated directly. -/
def bdemoOps : List BOp :=
  [.value .emplace 0 ⟨12, 4⟩ 5, .value .noDrop 2 ⟨8, 8⟩ 6, .fromIter .emplace 4, .hint 2 none, .next (some 1),
   .value .emplace 5 ⟨64, 64⟩ 9, .next (some 2), .next none, .next none, .with .emplace 1 ⟨16, 4⟩, .ret (.err 3),
   .with .emplace 1 ⟨16, 4⟩, .ret (.ok 7), .copySlice 65608 4 4 2, .direct (.allocate ⟨20, 4⟩)]

def bdemoRefs : List Ref :=
  [⟨0, 65872, 4, 4, 2, false⟩, ⟨10, 65860, 12, 4, 1, true⟩, ⟨13, 65640, 1, 1, 2, true⟩, ⟨14, 65728, 64, 64, 1, true⟩,
   ⟨11, 65608, 8, 8, 1, false⟩, ⟨10, 65592, 12, 4, 1, true⟩]

/-- `decide`-able version of a fact about the step after `bdemoOps`. -/
theorem bdemo_at {kind : AKind} {panics : List Nat} {debug : Bool} {ops : List BOp} {op : BOp} {f}
    (h : bdemoAt (bdemo [512, 2048, 4096] kind panics debug) false ops op f = true)
    (hk : ∀ exact keeps others, kind = .any exact keeps others → others = [⟨64, 64, ⟨64, 8⟩⟩] := by simp) :
    ∃ b0 b bk r b' bk', b0 = bdemo [512, 2048, 4096] kind panics debug ∧ BReach b0 b bk ∧ b.over = false ∧ b0.legal bk op ∧
      bstep b op = .ok (r, b') ∧ BAfter b0.types b0.kind bk op r bk' ∧ f b bk r b' bk' = true := by
  obtain ⟨b, bk, r, b', bk', h1⟩ := of_bdemoAt (bdemo_start _ _ _ _ hk) h
  exact ⟨_, b, bk, r, b', bk', rfl, h1⟩

/-! ### C33 -/

/-- C33: a reset, `drop_all`, wrapping in `SendBlink`, or drop of the `Blink` that returns normally has run the destructor of
every emplaced value once, with the present contents of the value: newest value first, elements of a slice in order. No value
remains to be dropped. (`b.drops` is the log of all destructor runs, newest first.) -/
theorem C33_all_dropped {b0 b b' : BState} {bk bk' : BBook} {op : BOp} (h : BReach b0 b bk) (hl : b0.legal bk op) (hd : op.drops)
    (hs : bstep b op = .ok (.unit, b')) (ha : BAfter b0.types b0.kind bk op .unit bk') :
    b'.drops = (owed b.s.w.mem bk.refs).reverse ++ b.drops ∧ bk'.refs = [] := by
  obtain ⟨cs, items, hw⟩ := h.wk
  obtain ⟨out, evs, m, b1, e1, e2, _, _, e4, _⟩ := hw.drop hl hd
  rw [e1] at hs
  injection hs with hs
  injection hs with f1 f2
  subst f2
  have hout : out = .fine := by cases out <;> first | rfl | cases f1
  exact ⟨by rw [e2, e4 hout], by rw [drop_book ha hd]⟩

/-- C33: no other action runs the destructor of an emplaced value. (It may drop values that are not emplaced: an item not yet
stored when the iterator panics, or zero-sized items of an iterator, see C42.) -/
theorem C33_only_then {b0 b b' : BState} {bk bk' : BBook} {op : BOp} {resp : BResp} (h : BReach b0 b bk) (hl : b0.legal bk op)
    (hd : ¬ op.drops) (hs : bstep b op = .ok (resp, b')) (ha : BAfter b0.types b0.kind bk op resp bk') :
    b'.drops = looseDrops b0.types bk op ++ b.drops ∧ (∀ ev ∈ looseDrops b0.types bk op, ∃ tid v, ev = .loose tid v) ∧
    bk'.refs = made b0.types bk op resp ++ bk.refs := by
  obtain ⟨cs, items, hw⟩ := h.wk
  refine ⟨(hw.other hl hd hs).1, looseDrops_loose, ?_⟩
  rw [ha.refs, refs_split hd]
  congr 1
  exact (bookAfter_congr rfl rfl).1

/-- C33: dropping returns normally if no destructor panics. -/
theorem C33_returns {b0 b : BState} {bk : BBook} {op : BOp} (h : BReach b0 b bk) (hl : b0.legal bk op) (hd : op.drops)
    (hp : ∀ n, (b0.dtors n).panics = false) : ∃ b', bstep b op = .ok (.unit, b') := by
  obtain ⟨cs, items, hw⟩ := h.wk
  obtain ⟨out, evs, m, b1, e1, _, _, _, _, _, _, e5, _⟩ := hw.drop hl hd
  have hout : out = .fine := by
    apply Decidable.byContradiction
    intro hc
    obtain ⟨k, _, hk⟩ := e5 hc
    rw [hp] at hk
    cases hk
  subst hout
  exact ⟨b1, e1⟩

/-- C33: over a whole history in which no dropping action panicked: for every type, the values emplaced for dropping are the ones
dropped plus the ones still to be dropped. -/
theorem C33_exactly_once {b0 b : BState} {bk : BBook} {tr : List (BOp × BResp)} (h0 : BStart b0)
    (h : BSteps b0 b0.legal b0 ⟨[], [], []⟩ tr b bk) (hp : ∀ e ∈ tr, e.1.drops → e.2 = .unit) (tid : Nat) :
    didDrop tid b.drops + toDrop tid bk.refs = toDrop tid (everMade b0.types tr) :=
  (counted h0 h tid).2 hp

/-- The hypotheses of C33 are met by a reset with four values and slices to be dropped among six references. -/
example : ∃ b0 b b' bk bk', BReach b0 b bk ∧ b0.legal bk .reset ∧ bstep b .reset = .ok (.unit, b') ∧
    BAfter b0.types b0.kind bk .reset .unit bk' ∧ bk.refs = bdemoRefs ∧ b'.drops.length = 5 := by
  obtain ⟨b0, b, bk, r, b', bk', rfl, h1, h2, h3, h4, h5, h6⟩ := bdemo_at (kind := .owned) (panics := []) (debug := true) (ops := bdemoOps)
    (op := .reset) (f := fun _ bk r b' _ => decide (bk.refs = bdemoRefs ∧ r = .unit ∧ b'.drops.length = 5)) (by decide +kernel)
  simp only [decide_eq_true_eq] at h6
  obtain ⟨g1, rfl, g3⟩ := h6
  exact ⟨_, b, b', bk, bk', h1, h3, h4, h5, g1, g3⟩

/-- The hypotheses of the history theorem are met by a history with two resets. -/
example : ∃ b0 tr b bk, BStart b0 ∧ BSteps b0 b0.legal b0 ⟨[], [], []⟩ tr b bk ∧ (∀ e ∈ tr, e.1.drops → e.2 = .unit) ∧
    didDrop 10 b.drops = 3 ∧ toDrop 10 bk.refs = 1 := by
  have h : (match bexecAll (bdemo [512, 2048, 4096] .owned []) false (bdemo [512, 2048, 4096] .owned []) ⟨[], [], []⟩
      (bdemoOps ++ [.reset, .value .emplace 0 ⟨12, 4⟩ 5, .dropAll, .value .emplace 0 ⟨12, 4⟩ 8]) with
      | none => false
      | some (tr, b, bk) => tr.all (fun e => !e.1.isDrop || decide (e.2 = .unit)) && decide (didDrop 10 b.drops = 3 ∧ toDrop 10 bk.refs = 1)) = true := by
    decide +kernel
  split at h
  · cases h
  · rename_i tr b bk he
    simp only [Bool.and_eq_true, decide_eq_true_eq, List.all_eq_true, Bool.or_eq_true, Bool.not_eq_true'] at h
    refine ⟨_, tr, b, bk, bdemo_start _ _ _ _, bexecAll_sound (lax := false) he, ?_, h.2.1, h.2.2⟩
    intro e hem hd
    rcases h.1 e hem with h1 | h1
    · rw [isDrop_of hd] at h1; cases h1
    · exact h1

/-! ### C34 -/

/-- C34: however a dropping action ends (normally, by a panic of a destructor, or by an abort), the destructor runs are the first
ones of the runs due, each once; and afterwards user code and `Blink` hold nothing to be dropped, so no later action drops any of
these values again. -/
theorem C34_no_second_drop {b0 b b' : BState} {bk bk' : BBook} {op : BOp} {resp : BResp} (h : BReach b0 b bk) (hl : b0.legal bk op)
    (hd : op.drops) (hs : bstep b op = .ok (resp, b')) (ha : BAfter b0.types b0.kind bk op resp bk') :
    ∃ evs, evs <+: owed b.s.w.mem bk.refs ∧ b'.drops = evs.reverse ++ b.drops ∧ bk'.refs = [] ∧ b'.root = 0 := by
  obtain ⟨cs, items, hw⟩ := h.wk
  obtain ⟨out, evs, m, b1, e1, e2, e3, e4, _⟩ := hw.drop hl hd
  rw [e1] at hs
  injection hs with hs
  injection hs with f1 f2
  subst f2
  exact ⟨evs, e4, e2, by rw [drop_book ha hd], e3⟩

/-- C34: a panic of a destructor stops the dropping after the value or slice it happened in; the rest of that slice is still
dropped. -/
theorem C34_where_it_stops {b0 b b' : BState} {bk : BBook} {op : BOp} {reg} (h : BReach b0 b bk) (hl : b0.legal bk op) (hd : op.drops)
    (hs : bstep b op = .ok (.panicked reg, b')) :
    ∃ before r post, bk.refs.filter (·.drop) = before ++ r :: post ∧
      b'.drops = (owed b.s.w.mem (before ++ [r])).reverse ++ b.drops := by
  obtain ⟨cs, items, hw⟩ := h.wk
  obtain ⟨out, evs, m, b1, e1, e2, e3, _, _, _, e4, _⟩ := hw.drop hl hd
  rw [e1] at hs
  injection hs with hs
  injection hs with f1 f2
  subst f2
  have hout : out = .panicked := by cases out <;> first | rfl | cases f1
  obtain ⟨before, r, post, g1, g2⟩ := e4 hout
  exact ⟨before, r, post, g1, by rw [e2, g2]⟩

/-- C34: over a whole history, with arbitrary panics: for every type, never more values are dropped than were emplaced for
dropping and are not waiting to be dropped. -/
theorem C34_never_twice {b0 b : BState} {bk : BBook} {tr : List (BOp × BResp)} (h0 : BStart b0)
    (h : BSteps b0 b0.legal b0 ⟨[], [], []⟩ tr b bk) (tid : Nat) :
    didDrop tid b.drops + toDrop tid bk.refs ≤ toDrop tid (everMade b0.types tr) :=
  (counted h0 h tid).1

/-- The hypotheses of C34 are met by a reset in which the first element of a two-element slice panics: the other element is
dropped, the two older values are not; a later reset drops nothing. -/
example : ∃ b0 b b' bk bk', BReach b0 b bk ∧ b.over = false ∧ b0.legal bk .reset ∧ bstep b .reset = .ok (.panicked none, b') ∧
    BAfter b0.types b0.kind bk .reset (.panicked none) bk' ∧ bk.refs = bdemoRefs ∧ b'.drops.length = 3 ∧ (owed b.s.w.mem bk.refs).length = 5 := by
  obtain ⟨b0, b, bk, r, b', bk', rfl, h1, h2, h3, h4, h5, h6⟩ := bdemo_at (kind := .owned) (panics := [1]) (debug := true) (ops := bdemoOps)
    (op := .reset) (f := fun b bk r b' _ => decide (bk.refs = bdemoRefs ∧ r = .panicked none ∧ b'.drops.length = 3 ∧ (owed b.s.w.mem bk.refs).length = 5))
    (by decide +kernel)
  simp only [decide_eq_true_eq] at h6
  obtain ⟨g1, rfl, g3, g4⟩ := h6
  exact ⟨_, b, b', bk, bk', h1, h2, h3, h4, h5, g1, g3, g4⟩

/-! ### C35 -/

/-- C35: user code keeps a reference, and every byte of it keeps its value, through every history without a dropping action in
which the owner does not write that byte: whatever is emplaced, collected, fails, panics, or is allocated, resized or freed
directly in the meantime. -/
theorem C35_stable {b0 b b' : BState} {bk bk' : BBook} {tr : List (BOp × BResp)} (h : BReach b0 b bk)
    (hs : BSteps b0 b0.legal b bk tr b' bk') {r : Ref} (hr : r ∈ bk.refs) (hd : ∀ e ∈ tr, ¬ e.1.drops) :
    r ∈ bk'.refs ∧ ∀ x, r.Has x → (∀ e ∈ tr, ∀ v, e.1 ≠ .write x v) → b'.s.w.mem x = b.s.w.mem x :=
  h.stable hs hr hd

/-- C35: what a reference to one value returned by `put`, `put_no_drop`, `value` reads. -/
theorem C35_value {b0 b b' : BState} {bk : BBook} {e r re v a} (h : BReach b0 b bk) (hl : b0.legal bk (.value e r re v))
    (hs : bstep b (.value e r re v) = .ok (.ref a, b')) : Holds b'.s.w.mem a (b0.types r).tsize [v] := by
  obtain ⟨cs, items, hw⟩ := h.wk
  rcases hw.startStep rfl hl.1 hl.2 with ⟨_, _, he⟩ | ⟨resp, b1, cs', items', e1, _, _, _, e5⟩
  · rw [he] at hs; cases hs
  rw [e1] at hs
  injection hs with hs
  injection hs with f1 f2
  subst f1 f2
  rcases e5 with h1 | ⟨a', h1, h2⟩
  · cases h1
  · injection h1 with h1
    subst h1
    exact h2

/-- C35: what a reference returned by `with` or `with_fallible` reads. -/
theorem C35_with {b0 b b' : BState} {bk : BBook} {f fs v a} (h : BReach b0 b bk) (hl : b0.legal bk (.ret (.ok v)))
    (hf : bk.frames = f :: fs) (hs : bstep b (.ret (.ok v)) = .ok (.ref a, b')) : Holds b'.s.w.mem a (b0.types f.r).tsize [v] := by
  obtain ⟨cs, items, hw⟩ := h.wk
  rcases hw.retStep rfl hl.1 hl.2 hf (by simp) with ⟨_, _, he⟩ | ⟨resp, b1, cs', items', e1, _, _, _, _, e5⟩
  · rw [he] at hs; cases hs
  rw [e1] at hs
  injection hs with hs
  injection hs with f1 f2
  subst f1 f2
  obtain ⟨a', h1, h2⟩ := e5
  injection h1 with h1
  subst h1
  exact h2

/-- C35, end to end: the reference `put` returned reads the value put until the next dropping action. -/
theorem C35_reads_value {b0 b b1 b' : BState} {bk bk1 bk' : BBook} {e r re v a} {tr : List (BOp × BResp)} (h : BReach b0 b bk)
    (ho : b.over = false) (hl : b0.legal bk (.value e r re v)) (hs : bstep b (.value e r re v) = .ok (.ref a, b1))
    (ha : BAfter b0.types b0.kind bk (.value e r re v) (.ref a) bk1) (ht : BSteps b0 b0.legal b1 bk1 tr b' bk')
    (hd : ∀ e ∈ tr, ¬ e.1.drops) (hw : ∀ e ∈ tr, ∀ x v, e.1 = .write x v → x < a ∨ a + (b0.types r).tsize ≤ x) :
    Holds b'.s.w.mem a (b0.types r).tsize [v] := by
  have h1 := C35_value h hl hs
  have hmem : (b0.types r).ref (undropped (b0.types r) e) a 1 ∈ bk1.refs := by
    rw [ha.refs]; simp [bookAfter, BBook.push]
  obtain ⟨_, h2⟩ := (h.next ho hl hs ha).stable ht hmem hd
  refine h1.of_same fun x g1 g2 => h2 x ⟨g1, ?_⟩ ?_
  · simpa [RTy.ref] using g2
  · intro e' he' v' hc
    rcases hw e' he' x v' hc with h3 | h3
    · omega
    · simp at g2; omega

/-- The hypotheses of C35 are met: the first value of `bdemoOps` keeps its bytes while the rest of `bdemoOps` happens. -/
example : ∃ b0 b b' bk bk' tr r, BReach b0 b bk ∧ BSteps b0 b0.legal b bk tr b' bk' ∧ r ∈ bk.refs ∧ (∀ e ∈ tr, ¬ e.1.drops) ∧ tr.length = 14 := by
  have h : (match bexecAll (bdemo [512, 2048, 4096] .owned []) false (bdemo [512, 2048, 4096] .owned []) ⟨[], [], []⟩
      (bdemoOps.take 1) with
      | none => false
      | some (_, b, bk) =>
        match bexecAll (bdemo [512, 2048, 4096] .owned []) false b bk (bdemoOps.drop 1) with
        | none => false
        | some (tr, _, _) => decide (bk.refs = [⟨10, 65592, 12, 4, 1, true⟩] ∧ tr.length = 14) && tr.all fun e => !e.1.isDrop) = true := by
    decide +kernel
  split at h
  · cases h
  rename_i tr0 b bk he
  split at h
  · cases h
  rename_i tr b' bk' he'
  simp only [Bool.and_eq_true, decide_eq_true_eq, List.all_eq_true, Bool.not_eq_true'] at h
  refine ⟨_, b, b', bk, bk', tr, ⟨10, 65592, 12, 4, 1, true⟩, ⟨bdemo_start _ _ _ _, tr0, bexecAll_sound (lax := false) he⟩,
    bexecAll_sound (lax := false) he', by rw [h.1.1]; simp, ?_, h.1.2⟩
  intro e hem hd
  have := h.2 e hem
  rw [isDrop_of hd] at this
  cases this

/-! ### C36 -/

theorem finish_resp {b : BState} {r nd re blk res resp b'} (h : b.finish r nd re blk res = .ok (resp, b')) :
    (∃ a, resp = .ref a) ∨ ∃ e, resp = .failed e := by
  unfold BState.finish at h
  dsimp only at h
  split at h
  · obtain ⟨⟨_, b1⟩, _, h⟩ := ebind_split h
    obtain ⟨⟨o, b2⟩, _, h⟩ := ebind_split h
    cases o with
    | none => injection h with h; injection h with h _; exact .inl ⟨_, h.symm⟩
    | some e =>
      obtain ⟨b3, _, h⟩ := ebind_split h
      injection h with h; injection h with h _; exact .inr ⟨_, h.symm⟩
  · obtain ⟨⟨_, b1⟩, _, h⟩ := ebind_split h
    obtain ⟨⟨_, b2⟩, _, h⟩ := ebind_split h
    obtain ⟨⟨o, b3⟩, _, h⟩ := ebind_split h
    cases o with
    | none =>
      obtain ⟨b4, _, h⟩ := ebind_split h
      injection h with h; injection h with h _; exact .inl ⟨_, h.symm⟩
    | some e =>
      obtain ⟨b4, _, h⟩ := ebind_split h
      injection h with h; injection h with h _; exact .inr ⟨_, h.symm⟩

/-- C36: `try_value` asks the allocator for one block. If it is refused, the value comes back and nothing but the allocator
changed: nothing was written, registered or dropped. If it is granted, the value is emplaced. -/
theorem C36_try_value {b0 b b' : BState} {bk bk' : BBook} {e r re v resp} (h : BReach b0 b bk) (hl : b0.legal bk (.value e r re v))
    (hs : bstep b (.value e r re v) = .ok (resp, b')) (ha : BAfter b0.types b0.kind bk (.value e r re v) resp bk') :
    ∃ l al st, b0.kind.step b.s (.allocate l) = .ok (al, st) ∧
      ((al = .err ∧ resp = .back (some v) ∧ b' = { b with s := st } ∧ bk' = bk) ∨
       ∃ blk a, al = .block blk ∧ resp = .ref a ∧ Holds b'.s.w.mem a (b0.types r).tsize [v] ∧
         bk' = bk.push ((b0.types r).ref (undropped (b0.types r) e) a 1)) := by
  obtain ⟨cs, items, hw⟩ := h.wk
  have hbk : bk' = bookAfter b0.types b0.kind bk (.value e r re v) resp := by cases ha; rfl
  have hl' := hl.1
  cases hl' with
  | value hd hre =>
    have hb : bstep b (.value e r re v) = b.start (.value e r re v) := rfl
    have hs' := hs
    rw [hb] at hs'
    unfold BState.start at hs'
    dsimp only at hs'
    rw [hw.types] at hs'
    obtain ⟨⟨o, b1⟩, h1, h2⟩ := ebind_split hs'
    rcases hw.inv.allocate (emplaceLayout_valid (nd := noDropPath (b0.types r) e) (hw.start.types r) hre) with ⟨er, _, he⟩ | ⟨q, s', cs', he, _⟩
    · unfold BState.allocate at h1
      rw [hw.kind, ebind_err' he] at h1
      cases h1
    · refine ⟨_, _, s', he, ?_⟩
      unfold BState.allocate at h1
      rw [hw.kind, ebind_ok' he] at h1
      cases q with
      | none =>
        injection h1 with h1
        injection h1 with h1 h3
        subst h1 h3
        injection h2 with h2
        injection h2 with h2 h4
        subst h2 h4
        exact .inl ⟨rfl, rfl, by rw [hw.kind], hbk⟩
      | some blk =>
        injection h1 with h1
        injection h1 with h1 h3
        subst h1 h3
        right
        rcases hw.startStep rfl hl.1 hl.2 with ⟨_, _, he2⟩ | ⟨resp1, b2, cs2, items2, e1, _, _, _, e5⟩
        · rw [he2] at hs; cases hs
        rw [e1] at hs
        injection hs with hs
        injection hs with f1 f2
        subst f1 f2
        rcases e5 with g | ⟨a, g1, g2⟩
        · rcases finish_resp h2 with ⟨a, g3⟩ | ⟨er, g3⟩ <;> rw [g] at g3 <;> cases g3
        · subst g1
          exact ⟨blk, a, rfl, rfl, g2, hbk⟩

/-- C36: `try_with` asks the allocator for one block. If it is refused, the closure comes back without having been called and
nothing but the allocator changed. If it is granted, the closure is called. -/
theorem C36_try_with {b0 b b' : BState} {bk bk' : BBook} {e r re resp} (h : BReach b0 b bk) (hl : b0.legal bk (.with e r re))
    (hs : bstep b (.with e r re) = .ok (resp, b')) (ha : BAfter b0.types b0.kind bk (.with e r re) resp bk') :
    ∃ l al st, b0.kind.step b.s (.allocate l) = .ok (al, st) ∧
      ((al = .err ∧ resp = .back none ∧ b' = { b with s := st } ∧ bk' = bk) ∨
       ∃ blk, al = .block blk ∧ resp = .wait .closure ∧ b'.s = st ∧ b'.drops = b.drops ∧ b'.root = b.root ∧ bk'.refs = bk.refs) := by
  obtain ⟨cs, items, hw⟩ := h.wk
  have hbk : bk' = bookAfter b0.types b0.kind bk (.with e r re) resp := by cases ha; rfl
  cases hl.1 with
  | «with» hre =>
    have hb : bstep b (.with e r re) = b.start (.with e r re) := rfl
    rw [hb] at hs
    unfold BState.start at hs
    dsimp only at hs
    rw [hw.types] at hs
    obtain ⟨⟨o, b1⟩, h1, h2⟩ := ebind_split hs
    rcases hw.inv.allocate (emplaceLayout_valid (nd := noDropPath (b0.types r) e) (hw.start.types r) hre) with ⟨er, _, he⟩ | ⟨q, s', cs', he, _⟩
    · unfold BState.allocate at h1
      rw [hw.kind, ebind_err' he] at h1
      cases h1
    · refine ⟨_, _, s', he, ?_⟩
      unfold BState.allocate at h1
      rw [hw.kind, ebind_ok' he] at h1
      cases q with
      | none =>
        injection h1 with h1
        injection h1 with h1 h3
        subst h1 h3
        injection h2 with h2
        injection h2 with h2 h4
        subst h2 h4
        exact .inl ⟨rfl, rfl, by rw [hw.kind], hbk⟩
      | some blk =>
        injection h1 with h1
        injection h1 with h1 h3
        subst h1 h3
        injection h2 with h2
        injection h2 with h2 h4
        subst h2 h4
        exact .inr ⟨blk, rfl, rfl, rfl, rfl, rfl, by rw [hbk]; rfl⟩

/-- The hypotheses of C36 are met by a refused attempt after other values were emplaced. -/
example : ∃ b0 b b' bk bk', BReach b0 b bk ∧ b0.legal bk (.value .emplace 5 ⟨64, 64⟩ 9) ∧
    bstep b (.value .emplace 5 ⟨64, 64⟩ 9) = .ok (.back (some 9), b') ∧
    BAfter b0.types b0.kind bk (.value .emplace 5 ⟨64, 64⟩ 9) (.back (some 9)) bk' ∧ bk.refs.length = 3 := by
  obtain ⟨b, bk, r, b', bk', h1, h2, h3, h4, h5, h6⟩ := of_bdemoAt (bdemo_start [512, 0] .owned [] true)
    (ops := [.value .emplace 5 ⟨64, 64⟩ 5, .value .emplace 5 ⟨64, 64⟩ 6, .value .emplace 5 ⟨64, 64⟩ 7])
    (op := .value .emplace 5 ⟨64, 64⟩ 9) (f := fun _ bk r _ _ => decide (bk.refs.length = 3 ∧ r = .back (some 9)))
    (by decide +kernel)
  simp only [decide_eq_true_eq] at h6
  obtain ⟨g1, rfl⟩ := h6
  exact ⟨_, b, b', bk, bk', h1, h3, h4, h5, g1⟩

/-! ### C37 -/

/-- C37 in full: in histories of safe code, the return of a closure never leads to undefined behaviour, in particular not to a
write outside the memory allocated for the value. -/
def C37_full : Prop :=
  ∀ {b0 b : BState} {bk : BBook} {res : Res}, BReachSafe b0 b bk → b.over = false → b0.safe bk (.ret res) →
    (∃ resp b', bstep b (.ret res) = .ok (resp, b')) ∨ ∃ e, BadAnswer b.s.w e ∧ bstep b (.ret res) = .error e

/-- C37 in full is false of this code: `with_fallible` without dropping allocates a `T` but writes a `Result<T, E>`
(src/blink.rs:360, 370). Here an 8-byte value whose `Result` has 16 bytes. -/
theorem C37_full_false : ¬ C37_full := by
  intro hc
  obtain ⟨b, bk, e, h1, h2, h3, h4, h5⟩ := of_bdemoFault_safe (bdemo_start [512, 2048] .owned [] true)
    (ops := [.with .noDrop 6 ⟨16, 8⟩]) (op := .ret (.ok 4)) (f := fun _ _ e => decide (e = .ub "write outside the allocation")) (by decide +kernel)
  rw [decide_eq_true_eq] at h5
  subst h5
  rcases hc h1 h2 h3 with ⟨resp, b', h6⟩ | ⟨e, ⟨l, sl, h6, _⟩, h7⟩
  · rw [h4] at h6; cases h6
  · rw [h4] at h7
    injection h7 with h7
    rw [← h7] at h6
    cases h6

/-- C37, for the drop variant with any types, and for the no-drop variant when the `Result` is not larger than the `T` (what
`BLegal.ret` demands): the return of a closure succeeds unless the allocator below misbehaves, and runs no destructor. `Ok(v)`:
the reference reads `v`. `Err(e)`: the error is returned and nothing is registered. The bytes of all other references and of
directly allocated blocks stay as they are. Missing: the no-drop variant with a larger `Result`, where it is false. -/
theorem C37_partial {b0 b : BState} {bk : BBook} {f fs res} (h : BReach b0 b bk) (hl : b0.legal bk (.ret res)) (hf : bk.frames = f :: fs) :
    (∃ e, BadAnswer b.s.w e ∧ bstep b (.ret res) = .error e) ∨
    ∃ resp b', bstep b (.ret res) = .ok (resp, b') ∧ b'.drops = b.drops ∧ b'.over = b.over ∧
      (∀ v, res = .ok v → ∃ a, resp = .ref a ∧ Holds b'.s.w.mem a (b0.types f.r).tsize [v]) ∧
      (∀ e, res = .err e → resp = .failed e ∧ ∀ bk', BAfter b0.types b0.kind bk (.ret res) resp bk' → bk'.refs = bk.refs) ∧
      (∀ x r, r ∈ bk.refs → r.Has x → b'.s.w.mem x = b.s.w.mem x) ∧ (∀ x o, o ∈ bk.direct → o.Has x → b'.s.w.mem x = b.s.w.mem x) := by
  obtain ⟨cs, items, hw⟩ := h.wk
  rcases hw.retStep rfl hl.1 hl.2 hf (by simp) with hb | ⟨resp, b1, cs', items', e1, e2, e3, _, _, e5⟩
  · exact .inl hb
  right
  obtain ⟨g1, g2, g3, g4⟩ := hw.other hl (by simp [BOp.drops]) e1
  refine ⟨resp, b1, e1, e2, ?_, ?_, ?_, fun x r hr hx => g3 x r hr hx (by simp), fun x o ho hx => g4 x o ho hx (by simp)⟩
  · rcases e3 with e3 | ⟨e3, _⟩
    · exact e3
    · exfalso
      subst e3
      cases res with
      | ok v => obtain ⟨a, h1, _⟩ := e5; cases h1
      | err e => cases e5
  · intro v hv
    subst hv
    exact e5
  · intro e he
    subst he
    have e5 : resp = .failed e := e5
    subst e5
    refine ⟨rfl, fun bk' ha => ?_⟩
    rw [ha.refs]
    simp only [bookAfter, hf]
    rfl

/-- The hypotheses of C37 are met by closures that return `Err` and `Ok`, in the drop variant with a larger `Result`. -/
example : ∃ b0 b bk f fs, BReach b0 b bk ∧ b0.legal bk (.ret (.err 3)) ∧ b0.legal bk (.ret (.ok 3)) ∧ bk.frames = f :: fs ∧
    (b0.types f.r).tsize < (b0.types f.r).size := by
  obtain ⟨b0, b, bk, r, b', bk', rfl, h1, h2, h3, h4, h5, h6⟩ := bdemo_at (kind := .owned) (panics := []) (debug := true)
    (ops := bdemoOps.take 10) (op := .ret (.err 3)) (f := fun _ bk _ _ _ => decide (bk.frames = [⟨.closure, 1, false, [], false, 0⟩]))
    (by decide +kernel)
  rw [decide_eq_true_eq] at h6
  refine ⟨_, b, bk, ⟨.closure, 1, false, [], false, 0⟩, [], h1, h3,
    ⟨.ret h6 rfl (by simp) (by intro hc; cases hc), fun _ _ _ hk => by cases hk⟩, h6, by decide⟩

/-! ### C40 -/

/-- C40 in full: in histories of safe code, answering a waiting no-drop call runs no destructor. (If user code panics, the local
variable holding the last item is dropped as the stack unwinds; it has not been emplaced.) -/
def C40_full : Prop :=
  ∀ {b0 b b' : BState} {bk : BBook} {f fs op resp}, BReachSafe b0 b bk → b.over = false → b0.safe bk op → bk.frames = f :: fs → f.nd = true →
    op ≠ .panic → bstep b op = .ok (resp, b') → b'.drops = b.drops

/-- C40 in full is false of this code: zero-sized items of a no-drop `from_iter` are dropped while they are counted. -/
theorem C40_full_false : ¬ C40_full := by
  intro hc
  obtain ⟨b, bk, r, b', bk', h1, h2, h3, h4, h5, h6⟩ := of_bdemoAt_safe (bdemo_start [512, 2048] .owned [] true)
    (ops := [.fromIter .noDrop 3, .hint 0 none]) (op := .next (some 4))
    (f := fun b bk _ b' _ => decide (bk.frames = [⟨.next, 3, true, [], false, 0⟩] ∧ b.drops = [] ∧ b'.drops = [.loose 12 4])) (by decide +kernel)
  rw [decide_eq_true_eq] at h6
  obtain ⟨g1, g2, g3⟩ := h6
  have := hc h1 h2 h3 g1 rfl (by simp) h4
  rw [g2, g3] at this
  cases this

/-- C40: if all values of a type that were ever emplaced were emplaced without dropping, no destructor of that type was ever run on
a value in the arena. -/
theorem C40_partial {b0 b : BState} {bk : BBook} {tr : List (BOp × BResp)} (h0 : BStart b0)
    (h : BSteps b0 b0.legal b0 ⟨[], [], []⟩ tr b bk) (tid : Nat) (hn : ∀ r ∈ everMade b0.types tr, r.tid = tid → r.drop = false) :
    ∀ a bytes, .item tid a bytes ∉ b.drops := by
  have hz : toDrop tid (everMade b0.types tr) = 0 := by
    revert hn
    generalize everMade b0.types tr = l
    intro hn
    induction l with
    | nil => rfl
    | cons r l ih =>
      have h1 := ih fun s hs => hn s (List.mem_cons_of_mem _ hs)
      have h2 : ¬ (r.drop = true ∧ r.tid = tid) := by
        intro hc
        rw [hn r List.mem_cons_self hc.2] at hc
        cases hc.1
      unfold toDrop at h1 ⊢
      simp [h1, h2]
  have := (counted h0 h tid).1
  have hd : didDrop tid b.drops = 0 := by omega
  unfold didDrop at hd
  rw [List.length_eq_zero_iff, List.filter_eq_nil_iff] at hd
  intro a bytes hm
  have := hd _ hm
  simp [DropEv.isItem] at this

/-- C40: no destructor run of a dropping action touches a value that was emplaced without dropping, even if values of the same type
were also emplaced with dropping. -/
theorem C40_untouched_partial {b0 b b' : BState} {bk : BBook} {op : BOp} {resp : BResp} (h : BReach b0 b bk) (hl : b0.legal bk op)
    (hd : op.drops) (hs : bstep b op = .ok (resp, b')) {tid a bytes} {evs : List DropEv} (he : b'.drops = evs ++ b.drops)
    (hev : .item tid a bytes ∈ evs) {r : Ref} (hr : r ∈ bk.refs) (hnd : r.drop = false) :
    ∀ x, a ≤ x → x < a + bytes.length → ¬ r.Has x := by
  obtain ⟨cs, items, hw⟩ := h.wk
  obtain ⟨out, evs', m, b1, e1, e2, _, e4, _⟩ := hw.drop hl hd
  rw [e1] at hs
  injection hs with hs
  injection hs with _ hs
  subst hs
  rw [e2] at he
  have he := List.append_cancel_right he
  rw [← he, List.mem_reverse] at hev
  have hev := e4.subset hev
  unfold owed at hev
  obtain ⟨r1, hr1, hev⟩ := List.mem_flatMap.mp hev
  obtain ⟨hr1, hdr⟩ := List.mem_filter.mp hr1
  unfold Ref.events at hev
  obtain ⟨k, hk, hev⟩ := List.mem_map.mp hev
  rw [List.mem_range] at hk
  injection hev with g1 g2 g3
  intro x hx1 hx2 hx
  have hlen : bytes.length = r1.size := by rw [← g3]; simp [bytesAt]
  have hmul : k * r1.size + r1.size ≤ r1.count * r1.size := by rw [← Nat.succ_mul]; exact Nat.mul_le_mul_right _ hk
  have hx' : r1.Has x := ⟨by omega, by omega⟩
  have hne : r1 ≠ r := by intro hc; rw [hc, hnd] at hdr; cases hdr
  have hp := hw.refs_apart
  rw [List.pairwise_iff_forall_sublist] at hp
  -- two different members of a list occur in one order or the other
  have hsub : [r1, r].Sublist bk.refs ∨ [r, r1].Sublist bk.refs := by
    obtain ⟨l1, l2, hl12⟩ := List.append_of_mem hr1
    rw [hl12] at hr ⊢
    rcases List.mem_append.mp hr with hr | hr
    · right
      obtain ⟨l3, l4, hl34⟩ := List.append_of_mem hr
      rw [hl34, List.append_assoc]
      refine List.Sublist.trans ?_ (List.sublist_append_right l3 _)
      refine List.Sublist.cons_cons r ?_
      exact List.Sublist.trans (List.Sublist.cons_cons r1 (List.nil_sublist _)) (List.sublist_append_right l4 _)
    · left
      rcases List.mem_cons.mp hr with hr | hr
      · exact absurd hr.symm hne
      · refine List.Sublist.trans ?_ (List.sublist_append_right l1 _)
        exact List.Sublist.cons_cons r1 (List.singleton_sublist.mpr hr)
  rcases hsub with hsub | hsub
  · exact hp hsub x ⟨hx', hx⟩
  · exact hp hsub x ⟨hx, hx'⟩

/-- The hypotheses of C40 are met by `bdemoOps` followed by a reset: type 11 is only emplaced without dropping, others with. -/
example : ∃ b0 tr b bk, BStart b0 ∧ BSteps b0 b0.legal b0 ⟨[], [], []⟩ tr b bk ∧
    (∀ r ∈ everMade b0.types tr, r.tid = 11 → r.drop = false) ∧ (∃ r ∈ everMade b0.types tr, r.tid = 11) ∧ didDrop 10 b.drops = 2 := by
  have h : (match bexecAll (bdemo [512, 2048, 4096] .owned []) false (bdemo [512, 2048, 4096] .owned []) ⟨[], [], []⟩
      (bdemoOps ++ [.reset]) with
      | none => false
      | some (tr, b, _) => (everMade (typeTable demoTypes) tr).all (fun r => decide (r.tid = 11 → r.drop = false)) &&
          (everMade (typeTable demoTypes) tr).any (fun r => decide (r.tid = 11)) && decide (didDrop 10 b.drops = 2)) = true := by
    decide +kernel
  split at h
  · cases h
  · rename_i tr b bk he
    simp only [Bool.and_eq_true, decide_eq_true_eq, List.all_eq_true, List.any_eq_true] at h
    exact ⟨_, tr, b, bk, bdemo_start _ _ _ _, bexecAll_sound (lax := false) he, h.1.1, h.1.2, h.2⟩

/-! ### C41 -/

/-- C41, what the documentation of `emplace_shared` promises: a value emplaced through it is dropped by the next reset. -/
def C41_full : Prop :=
  ∀ {b0 b b1 b2 : BState} {bk bk1 : BBook} {r re v a}, BReach b0 b bk → b.over = false → (b0.types r).drop = true →
    b0.legal bk (.value .shared r re v) → bstep b (.value .shared r re v) = .ok (.ref a, b1) →
    BAfter b0.types b0.kind bk (.value .shared r re v) (.ref a) bk1 → b0.legal bk1 .reset → bstep b1 .reset = .ok (.unit, b2) →
    ∃ bytes, .item (b0.types r).tid a bytes ∈ b2.drops

/-- C41 is false of this code: `emplace_shared` sets `no_drop: true` (src/blink.rs:1318). -/
theorem C41_full_false : ¬ C41_full := by
  intro hc
  have hstart := bdemo_start [512, 2048, 4096] .owned [] true
  obtain ⟨b, bk, r, b', bk', h1, h2, h3, h4, h5, h6⟩ := of_bdemoAt hstart (ops := []) (op := .value .shared 0 ⟨12, 4⟩ 5)
    (f := fun _ _ r b' bk' => decide (r = .ref 65568 ∧ bk'.frames = []) &&
      match bstep b' .reset with
      | .ok (r, b2) => decide (r = .unit ∧ b2.drops = [])
      | .error _ => false) (by decide +kernel)
  simp only [Bool.and_eq_true, decide_eq_true_eq] at h6
  obtain ⟨⟨rfl, g1⟩, h6⟩ := h6
  split at h6
  · rename_i r2 b2 h7
    rw [decide_eq_true_eq] at h6
    obtain ⟨rfl, h8⟩ := h6
    obtain ⟨bytes, h9⟩ := hc h1 h2 (by rfl) h3 h4 h5 ⟨.reset g1, fun _ _ _ hk => by cases hk⟩ h7
    rw [h8] at h9
    cases h9
  · cases h6

/-- C41, what the code does: a value emplaced through `emplace_shared` (or `emplace_no_drop`) adds nothing to what the next dropping
action has to drop. -/
theorem C41_never_dropped {b0 b b1 b2 : BState} {bk bk1 : BBook} {e r re v a op} (h : BReach b0 b bk) (ho : b.over = false)
    (he : e = .shared ∨ e = .noDrop)
    (hl : b0.legal bk (.value e r re v)) (hs : bstep b (.value e r re v) = .ok (.ref a, b1))
    (ha : BAfter b0.types b0.kind bk (.value e r re v) (.ref a) bk1) (hd : op.drops) (hl1 : b0.legal bk1 op)
    (hs1 : bstep b1 op = .ok (.unit, b2)) : b2.drops = (owed b1.s.w.mem bk.refs).reverse ++ b.drops := by
  have h1 := h.next ho hl hs ha
  obtain ⟨cs, items, hw⟩ := h.wk
  have hk : ∃ bk2, BAfter b0.types b0.kind bk1 op .unit bk2 := ⟨_, .other (fun o hc => by rw [hc] at hd; exact hd)⟩
  obtain ⟨bk2, ha2⟩ := hk
  rw [(C33_all_dropped h1 hl1 hd hs1 ha2).1]
  have hdr := (hw.other hl (by simp [BOp.drops]) hs).1
  have hlo : looseDrops b0.types bk (.value e r re v) = [] := by unfold looseDrops; split <;> rfl
  rw [hdr, hlo, List.nil_append]
  congr 2
  have hb : bk1 = bk.push ((b0.types r).ref (undropped (b0.types r) e) a 1) := by cases ha; rfl
  have hu : undropped (b0.types r) e = true := by rcases he with rfl | rfl <;> rfl
  rw [hb, hu]
  rfl

/-- C41, for the other adaptors that promise dropping (`put`, `emplace`, `emplace_unchecked`): the value is dropped, at the address
returned. Missing: `emplace_shared`, where it is false. -/
theorem C41_partial {b0 b b1 b2 : BState} {bk bk1 : BBook} {e r re v a op} (h : BReach b0 b bk) (ho : b.over = false)
    (he : e = .emplace ∨ e = .unchecked) (ht : (b0.types r).drop = true)
    (hl : b0.legal bk (.value e r re v)) (hs : bstep b (.value e r re v) = .ok (.ref a, b1))
    (ha : BAfter b0.types b0.kind bk (.value e r re v) (.ref a) bk1) (hd : op.drops) (hl1 : b0.legal bk1 op)
    (hs1 : bstep b1 op = .ok (.unit, b2)) :
    .item (b0.types r).tid a ((List.range (b0.types r).tsize).map fun j => .obj (2 * v) j) ∈ b2.drops := by
  have h1 := h.next ho hl hs ha
  have hk : ∃ bk2, BAfter b0.types b0.kind bk1 op .unit bk2 := ⟨_, .other (fun o hc => by rw [hc] at hd; exact hd)⟩
  obtain ⟨bk2, ha2⟩ := hk
  rw [(C33_all_dropped h1 hl1 hd hs1 ha2).1]
  have hb : bk1 = bk.push ((b0.types r).ref (undropped (b0.types r) e) a 1) := by cases ha; rfl
  have hu : undropped (b0.types r) e = false := by rcases he with rfl | rfl <;> simp [undropped, ht]
  rw [hb, hu]
  refine List.mem_append_left _ (List.mem_reverse.mpr ?_)
  have hv := C35_value h hl hs
  simp only [owed, BBook.push, RTy.ref, List.filter_cons, Bool.not_false, if_pos, List.flatMap_cons]
  refine List.mem_append_left _ ?_
  simp only [Ref.events, List.range_one, List.map_cons, List.map_nil, List.mem_singleton, Nat.zero_mul, Nat.add_zero, bytesAt]
  congr 1
  apply List.map_congr_left
  intro j hj
  rw [List.mem_range] at hj
  have := hv 0 (by simp) j hj
  simpa using this.symm

/-! ### C44 -/

/-- C44: the values a reference was created with are the ones its destructor runs get, at the addresses inside the reference user
code got, unless the owner wrote to them. -/
theorem C44_same_address {b0 b b1 b2 : BState} {bk bk1 : BBook} {tr : List (BOp × BResp)} {op : BOp} {r : Ref} {vs : List Nat}
    (h : BReach b0 b bk) (hr : r ∈ bk.refs) (hdr : r.drop = true) (hv : Holds b.s.w.mem r.addr r.size vs) (hn : vs.length = r.count)
    (hs : BSteps b0 b0.legal b bk tr b1 bk1) (hd : ∀ e ∈ tr, ¬ e.1.drops) (hw : ∀ e ∈ tr, ∀ x v, e.1 = .write x v → ¬ r.Has x)
    (hl : b0.legal bk1 op) (hop : op.drops) (hs1 : bstep b1 op = .ok (.unit, b2)) :
    ∀ i (hi : i < vs.length),
      .item r.tid (r.addr + i * r.size) ((List.range r.size).map fun j => .obj (2 * vs[i]) j) ∈ b2.drops := by
  intro i hi
  obtain ⟨h1, h2⟩ := h.stable hs hr hd
  have hk : ∃ bk2, BAfter b0.types b0.kind bk1 op .unit bk2 := ⟨_, .other (fun o hc => by rw [hc] at hop; exact hop)⟩
  obtain ⟨bk2, ha2⟩ := hk
  rw [(C33_all_dropped (h.extend hs) hl hop hs1 ha2).1]
  refine List.mem_append_left _ (List.mem_reverse.mpr ?_)
  unfold owed
  refine List.mem_flatMap.mpr ⟨r, List.mem_filter.mpr ⟨h1, hdr⟩, ?_⟩
  unfold Ref.events
  refine List.mem_map.mpr ⟨i, List.mem_range.mpr (by omega), ?_⟩
  congr 1
  unfold bytesAt
  apply List.map_congr_left
  intro j hj
  rw [List.mem_range] at hj
  have hmul : i * r.size + r.size ≤ r.count * r.size := by rw [← Nat.succ_mul]; exact Nat.mul_le_mul_right _ (by omega)
  rw [h2 _ ⟨by omega, by omega⟩ fun e he v hc => hw e he _ v hc ⟨by omega, by omega⟩]
  exact hv i hi j hj

/-- C44: the record of a slice (`DropItem<[T; 0]>`) ends where the record of a value (`DropItem<T>`) has its value, for every
alignment; this place is aligned, and the value fits into the record. -/
theorem C44_offsets {size align : Nat} (ha : ∃ k, align = 2 ^ k) :
    (dropItem 0 align).size = valueOff align ∧ valueOff align % align = 0 ∧ 24 ≤ valueOff align ∧
    valueOff align + size ≤ (dropItem size align).size := by
  have h := valueOff_facts ha
  refine ⟨dropItem_zero ha, h.2, h.1, ?_⟩
  exact (up_facts (valueOff align + size) (pow2_pos (pow2_max pow2_dal ha))).1

/-- The hypotheses of C44 are met by the two-element slice of `bdemoOps`, then a copy and a direct allocation, then a reset. -/
example : ∃ b0 b b1 b2 bk bk1 tr r vs, BReach b0 b bk ∧ r ∈ bk.refs ∧ r.drop = true ∧ Holds b.s.w.mem r.addr r.size vs ∧
    vs.length = r.count ∧ r.count = 2 ∧ BSteps b0 b0.legal b bk tr b1 bk1 ∧ tr.length = 6 ∧ (∀ e ∈ tr, ¬ e.1.drops) ∧
    (∀ e ∈ tr, ∀ x v, e.1 = .write x v → ¬ r.Has x) ∧ b0.legal bk1 .reset ∧ bstep b1 .reset = .ok (.unit, b2) := by
  have h : (match bexecAll (bdemo [512, 2048, 4096] .owned []) false (bdemo [512, 2048, 4096] .owned []) ⟨[], [], []⟩
      (bdemoOps.take 9) with
      | none => false
      | some (_, b, bk) =>
        match bexecAll (bdemo [512, 2048, 4096] .owned []) false b bk (bdemoOps.drop 9) with
        | none => false
        | some (tr, b1, bk1) =>
          match bstep b1 .reset with
          | .ok (r, _) => decide (⟨13, 65640, 1, 1, 2, true⟩ ∈ bk.refs ∧ b.s.w.mem 65640 = .obj 2 0 ∧ b.s.w.mem 65641 = .obj 4 0 ∧
              tr.length = 6 ∧ bk1.frames = [] ∧ r = .unit) && tr.all fun e => !e.1.isDrop && (match e.1 with | .write _ _ => false | _ => true)
          | .error _ => false) = true := by
    decide +kernel
  split at h
  · cases h
  rename_i tr0 b bk he
  split at h
  · cases h
  rename_i tr b1 bk1 he1
  split at h
  · rename_i r b2 he2
    simp only [Bool.and_eq_true, decide_eq_true_eq, List.all_eq_true, Bool.not_eq_true'] at h
    obtain ⟨⟨g1, g2, g3, g4, g5, rfl⟩, h⟩ := h
    refine ⟨_, b, b1, b2, bk, bk1, tr, ⟨13, 65640, 1, 1, 2, true⟩, [1, 2], ⟨bdemo_start _ _ _ _, tr0, bexecAll_sound (lax := false) he⟩,
      g1, rfl, ?_, rfl, rfl, bexecAll_sound (lax := false) he1, g4, ?_, ?_, ⟨.reset g5, fun _ _ _ hk => by cases hk⟩, he2⟩
    · intro i hi j hj
      have hj : j < 1 := hj
      obtain rfl : j = 0 := by omega
      have hi : i < 2 := hi
      rcases (by omega : i = 0 ∨ i = 1) with rfl | rfl
      · exact g2
      · exact g3
    · intro e hem hd
      have := (h e hem).1
      rw [isDrop_of hd] at this
      cases this
    · intro e hem x v hc
      have := (h e hem).2
      rw [hc] at this
      cases this
  · cases h

/-! ### C45 -/

/-- C45: `copy_slice` and `copy_str` return a slice of the same length with the same contents; the source is unchanged and apart
from the copy, and the copy is apart from every other reference and every block allocated directly. -/
theorem C45_copy {b0 b b' : BState} {bk : BBook} {src es ea n a m} (h : BReach b0 b bk) (hl : b0.legal bk (.copySlice src es ea n))
    (hs : bstep b (.copySlice src es ea n) = .ok (.slice a m, b')) :
    m = n ∧ a % ea = 0 ∧
    (∀ i, i < n * es → b'.s.w.mem (a + i) = b.s.w.mem (src + i) ∧ b'.s.w.mem (src + i) = b.s.w.mem (src + i) ∧
      (src + i < a ∨ a + n * es ≤ src + i)) ∧
    (∀ r ∈ bk.refs, ∀ x, r.Has x → x < a ∨ a + n * es ≤ x) ∧ (∀ o ∈ bk.direct, ∀ x, o.Has x → x < a ∨ a + n * es ≤ x) := by
  obtain ⟨cs, items, hw⟩ := h.wk
  cases hl.1 with
  | copySlice hr hv =>
    rcases hw.copyStep hr hv with ⟨_, _, he⟩ | ⟨resp, b1, cs', items', e1, _, _, e4, e5⟩
    · rw [he] at hs; cases hs
    rw [e1] at hs
    injection hs with hs
    injection hs with f1 f2
    subst f1 f2
    rcases e5 with h1 | ⟨a', h1, h2⟩
    · cases h1
    injection h1 with h1 h3
    subst h1 h3
    have hrefs : (bookAfter b0.types b0.kind bk (.copySlice src es ea m) (.slice a m)).refs = ⟨0, a, es, ea, m, false⟩ :: bk.refs := rfl
    have hp := e4.refs_apart
    rw [hrefs, List.pairwise_cons] at hp
    have hmem : (⟨0, a, es, ea, m, false⟩ : Ref) ∈ (bookAfter b0.types b0.kind bk (.copySlice src es ea m) (.slice a m)).refs := by
      rw [hrefs]; simp
    refine ⟨rfl, (e4.refs_ok hmem).1, h2, ?_, ?_⟩
    · intro r hr x hx
      have : ¬ (a ≤ x ∧ x < a + m * es) := fun hc => hp.1 r hr x ⟨hc, hx⟩
      omega
    · intro o ho x hx
      have : ¬ (a ≤ x ∧ x < a + m * es) := fun hc => e4.refs_direct hmem (o := o) ho x ⟨hc, hx⟩
      omega

/-- The hypotheses of C45 are met by a copy of two words from an emplaced value. -/
example : ∃ b0 b b' bk, BReach b0 b bk ∧ b0.legal bk (.copySlice 65608 4 4 2) ∧
    bstep b (.copySlice 65608 4 4 2) = .ok (.slice 65872 2, b') ∧ bk.refs.length = 5 := by
  obtain ⟨b0, b, bk, r, b', bk', rfl, h1, h2, h3, h4, h5, h6⟩ := bdemo_at (kind := .owned) (panics := []) (debug := true)
    (ops := bdemoOps.take 13) (op := .copySlice 65608 4 4 2) (f := fun _ bk r _ _ => decide (bk.refs.length = 5 ∧ r = .slice 65872 2))
    (by decide +kernel)
  rw [decide_eq_true_eq] at h6
  obtain ⟨g1, rfl⟩ := h6
  exact ⟨_, b, b', bk, h1, h3, h4, g1⟩

/-! ### C46 -/

/-- C46: no dropping action of a `Blink` over a shared reference (to a `BlinkAlloc` or any other allocator) changes the allocator: only bytes of the values being dropped may
change (their destructors run on them). User code keeps the blocks it allocated directly. -/
theorem C46_shared {b0 b b' : BState} {bk bk' : BBook} {op : BOp} {resp : BResp} (h : BReach b0 b bk)
    (hk : b0.kind = .shared ∨ ∃ exact others, b0.kind = .any exact true others)
    (hl : b0.legal bk op) (hd : op.drops) (hs : bstep b op = .ok (resp, b')) (ha : BAfter b0.types b0.kind bk op resp bk') :
    (∃ m, b'.s = { b.s with w := { b.s.w with mem := m } } ∧ ∀ x, (∀ r ∈ bk.refs, r.drop = true → ¬ r.Has x) → m x = b.s.w.mem x) ∧
    bk'.direct = bk.direct ∧ ∀ o ∈ bk.direct, ∀ x, o.Has x → b'.s.w.mem x = b.s.w.mem x := by
  obtain ⟨cs, items, hw⟩ := h.wk
  have hk2 : b0.kind.keeps = true := by rcases hk with hk | ⟨_, _, hk⟩ <;> rw [hk] <;> rfl
  obtain ⟨out, evs, m, b1, e1, _, _, _, _, _, _, _, _, e4, e5, _⟩ := hw.drop hl hd
  refine ⟨⟨m, ?_, e4⟩, by rw [drop_book ha hd, if_pos hk2], fun o ho x hx => hw.drop_direct hl hd hk2 hs x o ho hx⟩
  rw [e1] at hs
  injection hs with hs
  injection hs with _ hs
  subst hs
  apply e5
  rcases hk with hk | ⟨_, _, hk⟩ <;> rw [hk] <;> cases op <;> first | exact hd.elim | (cases out <;> rfl)

/-- The hypotheses of C46 are met by a reset over a shared allocator with a directly allocated block. -/
example : ∃ b0 b b' bk bk' resp, BReach b0 b bk ∧ (b0.kind = .shared ∨ ∃ exact others, b0.kind = .any exact true others) ∧ b0.legal bk .reset ∧ bstep b .reset = .ok (resp, b') ∧
    BAfter b0.types b0.kind bk .reset resp bk' ∧ bk.refs = bdemoRefs ∧ bk.direct.length = 1 := by
  obtain ⟨b0, b, bk, r, b', bk', rfl, h1, h2, h3, h4, h5, h6⟩ := bdemo_at (kind := .shared) (panics := []) (debug := true) (ops := bdemoOps)
    (op := .reset) (f := fun _ bk _ _ _ => decide (bk.refs = bdemoRefs ∧ bk.direct.length = 1)) (by decide +kernel)
  rw [decide_eq_true_eq] at h6
  exact ⟨_, b, b', bk, bk', r, h1, .inl rfl, h3, h4, h5, h6.1, h6.2⟩

/-! ### C57 -/

/-- C57: a `Blink` that owns its allocator or has a mutable reference to it resets it in `reset`, after all destructors returned;
the destructors only changed bytes of the values they ran on. -/
theorem C57_resets {b0 b b' : BState} {bk : BBook} (h : BReach b0 b bk) (hk : b0.kind = .owned ∨ b0.kind = .refMut) (hl : b0.legal bk .reset)
    (hs : bstep b .reset = .ok (.unit, b')) :
    ∃ m r, (∀ x, (∀ r ∈ bk.refs, r.drop = true → ¬ r.Has x) → m x = b.s.w.mem x) ∧
      step { b.s with w := { b.s.w with mem := m } } .reset = .ok (r, b'.s) := by
  obtain ⟨cs, items, hw⟩ := h.wk
  obtain ⟨out, evs, m, b1, e1, _, _, _, _, _, _, _, _, e4, _, e5⟩ := hw.drop hl trivial
  rw [e1] at hs
  injection hs with hs
  injection hs with f1 f2
  subst f2
  have hout : out = .fine := by cases out <;> first | rfl | cases f1
  subst hout
  obtain ⟨r, hr⟩ := e5 (by rcases hk with hk | hk <;> simp [renews, hk, AKind.keeps])
  rw [AKind.step_arena (by rcases hk with hk | hk <;> rw [hk] <;> rfl)] at hr
  exact ⟨m, r, e4, hr⟩

/-- C57: if a destructor panics, or for `drop_all`, the allocator is not reset: no block is given back and no memory but that of the
values being dropped changes. -/
theorem C57_not_reset {b0 b b' : BState} {bk : BBook} {op : BOp} {resp : BResp} (h : BReach b0 b bk) (hl : b0.legal bk op)
    (hop : op = .dropAll ∨ ((op = .reset ∨ op = .send) ∧ resp ≠ .unit)) (hs : bstep b op = .ok (resp, b')) :
    ∃ m, b'.s = { b.s with w := { b.s.w with mem := m } } ∧ ∀ x, (∀ r ∈ bk.refs, r.drop = true → ¬ r.Has x) → m x = b.s.w.mem x := by
  obtain ⟨cs, items, hw⟩ := h.wk
  have hd : op.drops := by rcases hop with rfl | ⟨rfl | rfl, _⟩ <;> trivial
  obtain ⟨out, evs, m, b1, e1, _, _, _, _, _, _, _, _, e4, e5, _⟩ := hw.drop hl hd
  rw [e1] at hs
  injection hs with hs
  injection hs with f1 f2
  subst f2
  refine ⟨m, e5 ?_, e4⟩
  rcases hop with rfl | ⟨rfl | rfl, hne⟩
  · cases out <;> rfl
  · cases out <;> first | rfl | exact absurd f1.symm hne
  · cases out <;> first | rfl | exact absurd f1.symm hne

/-- The hypotheses of C57 are met by a reset that returns and by one that panics. -/
example : (∃ b0 b b' bk, BReach b0 b bk ∧ (b0.kind = .owned ∨ b0.kind = .refMut) ∧ b0.legal bk .reset ∧ bstep b .reset = .ok (.unit, b') ∧ bk.refs = bdemoRefs) ∧
    ∃ b0 b b' bk resp, BReach b0 b bk ∧ b0.legal bk .reset ∧ bstep b .reset = .ok (resp, b') ∧ resp ≠ .unit ∧ bk.refs = bdemoRefs := by
  refine ⟨?_, ?_⟩
  · obtain ⟨b0, b, bk, r, b', bk', rfl, h1, h2, h3, h4, h5, h6⟩ := bdemo_at (kind := .refMut) (panics := []) (debug := true) (ops := bdemoOps)
      (op := .reset) (f := fun _ bk r _ _ => decide (bk.refs = bdemoRefs ∧ r = .unit)) (by decide +kernel)
    rw [decide_eq_true_eq] at h6
    obtain ⟨g1, rfl⟩ := h6
    exact ⟨_, b, b', bk, h1, (by simp [bdemo]), h3, h4, g1⟩
  · obtain ⟨b0, b, bk, r, b', bk', rfl, h1, h2, h3, h4, h5, h6⟩ := bdemo_at (kind := .owned) (panics := [1]) (debug := true) (ops := bdemoOps)
      (op := .reset) (f := fun _ bk r _ _ => decide (bk.refs = bdemoRefs ∧ r ≠ .unit)) (by decide +kernel)
    rw [decide_eq_true_eq] at h6
    exact ⟨_, b, b', bk, r, h1, h3, h4, h6.2, h6.1⟩

/-! ### C47 -/

/-- C47: if `SendBlink::new` returns, everything emplaced before has been dropped, on the old thread, and the drop list in the
wrapper is empty: dropping it (after any history without emplacing) would run no destructor. -/
theorem C47_send {b0 b b' : BState} {bk bk' : BBook} (h : BReach b0 b bk) (ho : b.over = false) (hl : b0.legal bk .send)
    (hs : bstep b .send = .ok (.unit, b')) (ha : BAfter b0.types b0.kind bk .send .unit bk') :
    b'.root = 0 ∧ bk'.refs = [] ∧ b'.drops = (owed b.s.w.mem bk.refs).reverse ++ b.drops ∧
    ∀ {op resp b2}, b0.legal bk' op → op.drops → bstep b' op = .ok (resp, b2) → b2.drops = b'.drops := by
  obtain ⟨evs, _, _, h3, h4⟩ := C34_no_second_drop h hl trivial hs ha
  refine ⟨h4, h3, (C33_all_dropped h hl trivial hs ha).1, ?_⟩
  intro op resp b2 hl2 hd2 hs2
  have h1 := h.next ho hl hs ha
  have hk : ∃ bk2, BAfter b0.types b0.kind bk' op resp bk2 := ⟨_, .other (fun o hc => by rw [hc] at hd2; exact hd2)⟩
  obtain ⟨bk2, ha2⟩ := hk
  obtain ⟨evs2, g1, g2, _⟩ := C34_no_second_drop h1 hl2 hd2 hs2 ha2
  rw [h3] at g1
  have : evs2 = [] := List.prefix_nil.mp g1
  rw [g2, this]
  rfl

/-- The hypotheses of C47 are met by sending a `Blink` with five values to be dropped. -/
example : ∃ b0 b b' bk bk', BReach b0 b bk ∧ b.over = false ∧ b0.legal bk .send ∧ bstep b .send = .ok (.unit, b') ∧
    BAfter b0.types b0.kind bk .send .unit bk' ∧ bk.refs = bdemoRefs ∧ b'.drops.length = 5 := by
  obtain ⟨b0, b, bk, r, b', bk', rfl, h1, h2, h3, h4, h5, h6⟩ := bdemo_at (kind := .owned) (panics := []) (debug := true) (ops := bdemoOps)
    (op := .send) (f := fun _ bk r b' _ => decide (bk.refs = bdemoRefs ∧ r = .unit ∧ b'.drops.length = 5)) (by decide +kernel)
  simp only [decide_eq_true_eq] at h6
  obtain ⟨g1, rfl, g3⟩ := h6
  exact ⟨_, b, b', bk, bk', h1, h2, h3, h4, h5, g1, g3⟩

/-! ### C55 -/

/-- C55: at every point of every history, references handed out are aligned for their type, refer to memory held from the underlying
allocator, and no byte belongs to two of them or to one of them and a block allocated directly. -/
theorem C55_references {b0 b : BState} {bk : BBook} (h : BReach b0 b bk) :
    bk.refs.Pairwise (fun r s => ∀ x, ¬ (r.Has x ∧ s.Has x)) ∧
    (∀ r ∈ bk.refs, ∀ o ∈ bk.direct, ∀ x, ¬ (r.Has x ∧ o.Has x)) ∧
    ∀ r ∈ bk.refs, r.addr % r.align = 0 ∧ (r.count * r.size ≠ 0 → b.s.w.accessible r.addr (r.count * r.size) = true) := by
  obtain ⟨cs, items, hw⟩ := h.wk
  exact ⟨hw.refs_apart, fun r hr o ho x => hw.refs_direct hr ho x, fun r hr => hw.refs_ok hr⟩

/-- The hypothesis of C55 is met with six references and a block allocated directly. -/
example : ∃ b0 b bk, BReach b0 b bk ∧ bk.refs = bdemoRefs ∧ bk.direct.length = 1 := by
  obtain ⟨b0, b, bk, r, b', bk', rfl, h1, h2, h3, h4, h5, h6⟩ := bdemo_at (kind := .shared) (panics := []) (debug := true) (ops := bdemoOps)
    (op := .reset) (f := fun _ bk _ _ _ => decide (bk.refs = bdemoRefs ∧ bk.direct.length = 1)) (by decide +kernel)
  rw [decide_eq_true_eq] at h6
  exact ⟨_, b, bk, h1, h6.1, h6.2⟩

/-! ### C56 -/

/-- C56: every legal action in every reachable state terminates without undefined behaviour and without failing a debug assertion,
unless the underlying allocator hands out memory that is not fresh or does not fit the request. -/
theorem C56_no_fault {b0 b : BState} {bk : BBook} {op : BOp} (h : BReach b0 b bk) (hl : b0.legal bk op) :
    (∃ resp b', bstep b op = .ok (resp, b')) ∨ ∃ e, BadAnswer b.s.w e ∧ bstep b op = .error e := by
  obtain ⟨cs, items, hw⟩ := h.wk
  rcases hw.step hl with hb | ⟨resp, b', _, _, e1, _⟩
  · exact .inr hb
  · exact .inl ⟨resp, b', e1⟩

/-- The hypotheses of C56 are met by an item written into a growing slice while other calls happened in between. -/
example : ∃ b0 b bk, BReach b0 b bk ∧ b0.legal bk (.next (some 2)) ∧ bk.frames.length = 1 ∧ bk.refs.length = 3 := by
  obtain ⟨b0, b, bk, r, b', bk', rfl, h1, h2, h3, h4, h5, h6⟩ := bdemo_at (kind := .owned) (panics := []) (debug := true)
    (ops := bdemoOps.take 6) (op := .next (some 2)) (f := fun _ bk _ _ _ => decide (bk.frames.length = 1 ∧ bk.refs.length = 3)) (by decide +kernel)
  rw [decide_eq_true_eq] at h6
  exact ⟨_, b, bk, h1, h3, h6.1, h6.2⟩

end Blink
