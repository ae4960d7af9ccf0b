import Verif.Proofs.BlinkHist
/-
  Values of sized types are dropped at most once, counting the ones that are not in the arena.
-/
namespace Blink

theorem handed_append {types : Nat → RTy} {tid : Nat} {tr1 tr2 : List (BOp × BResp)} : ∀ {bk : BBook},
    handed types tid bk (tr1 ++ tr2) = handed types tid bk tr1 +
      handed types tid (tr1.foldl (fun b e => bookAfter types .owned b e.1 e.2) bk) tr2 := by
  induction tr1 with
  | nil => intro bk; simp [handed]
  | cons e tr ih => intro bk; simp only [List.cons_append, handed, List.foldl_cons, ih]; omega

/-- The book of a replay agrees with the real one except for the direct blocks. -/
theorem replayed_book {b0 may tr b bk} (h : BSteps b0 may b0 ⟨[], [], []⟩ tr b bk) :
    (tr.foldl (fun b e => bookAfter b0.types .owned b e.1 e.2) ⟨[], [], []⟩).refs = bk.refs ∧
    (tr.foldl (fun b e => bookAfter b0.types .owned b e.1 e.2) ⟨[], [], []⟩).frames = bk.frames := by
  induction h with
  | nil => exact ⟨rfl, rfl⟩
  | @snoc tr b1 bk1 op r b2 bk2 _ _ _ _ ha ih =>
    rw [List.foldl_append]
    simp only [List.foldl_cons, List.foldl_nil]
    rw [ha.refs, ha.frames]
    exact bookAfter_congr ih.1 ih.2

theorem handedBy_congr {types tid bk bk' op} (h : bk'.frames = bk.frames) : handedBy types tid bk' op = handedBy types tid bk op := by
  unfold handedBy
  rw [h]

theorem handed_snoc {b0 may tr b bk op r tid} (h : BSteps b0 may b0 ⟨[], [], []⟩ tr b bk) :
    handed b0.types tid ⟨[], [], []⟩ (tr ++ [(op, r)]) = handed b0.types tid ⟨[], [], []⟩ tr + handedBy b0.types tid bk op := by
  rw [handed_append]
  simp only [handed, Nat.add_zero]
  rw [handedBy_congr (replayed_book h).2]

theorem runs_append {tid : Nat} {l1 l2 : List DropEv} : runs tid (l1 ++ l2) = runs tid l1 + runs tid l2 := by
  simp [runs]

theorem runs_reverse {tid : Nat} {l : List DropEv} : runs tid l.reverse = runs tid l := by
  simp [runs, List.filter_reverse]

theorem runs_prefix {tid : Nat} {l1 l2 : List DropEv} (h : l1 <+: l2) : runs tid l1 ≤ runs tid l2 := by
  obtain ⟨t, rfl⟩ := h
  rw [runs_append]
  exact Nat.le_add_right _ _

theorem runs_events {tid : Nat} {m : Nat → Byte} {r : Ref} : runs tid (r.events m) = if r.tid = tid then r.count else 0 := by
  unfold runs Ref.events
  rw [List.filter_map, List.length_map]
  by_cases h : r.tid = tid
  · rw [if_pos h, List.filter_eq_self.mpr]
    · exact List.length_range
    · intro k _
      simp [DropEv.isRun, h]
  · rw [if_neg h, List.length_eq_zero_iff, List.filter_eq_nil_iff]
    intro k _
    simp [DropEv.isRun, h]

theorem runs_owed {tid : Nat} {m : Nat → Byte} {refs : List Ref} : runs tid (owed m refs) = toDrop tid refs := by
  induction refs with
  | nil => rfl
  | cons r rs ih =>
    have hc : toDrop tid (r :: rs) = (if r.drop ∧ r.tid = tid then r.count else 0) + toDrop tid rs := by
      simp [toDrop]
    rw [hc, ← ih]
    unfold owed
    rw [List.filter_cons]
    by_cases hd : r.drop = true
    · rw [if_pos hd, List.flatMap_cons, runs_append, runs_events]
      simp [hd]
    · rw [if_neg hd]
      simp [hd]

theorem runs_loose {tid : Nat} {t : RTy} {v : Nat} : runs tid (t.loose v) ≤ if t.tid = tid then 1 else 0 := by
  unfold RTy.loose runs
  split
  · rw [List.filter_cons]
    by_cases h : t.tid = tid
    · simp [h, DropEv.isRun]
    · simp [h, DropEv.isRun]
  · simp

/-- Items of type `tid` in the hands of a waiting call. -/
def FBook.inHand (types : Nat → RTy) (tid : Nat) (f : FBook) : Nat := if (types f.r).tid = tid then f.got.length else 0

/-- Items of type `tid` in the hands of all waiting calls. -/
def inHand (types : Nat → RTy) (tid : Nat) (fs : List FBook) : Nat := (fs.map (FBook.inHand types tid)).sum

theorem inHand_cons {types tid f fs} : inHand types tid (f :: fs) = f.inHand types tid + inHand types tid fs := by
  simp [inHand]

theorem toDrop_cons {tid : Nat} {r : Ref} {l : List Ref} : toDrop tid (r :: l) = (if r.drop ∧ r.tid = tid then r.count else 0) + toDrop tid l := by
  simp [toDrop]

theorem toDrop_push {tid : Nat} {bk : BBook} {r : Ref} :
    toDrop tid (bk.push r).refs ≤ (if r.tid = tid then r.count else 0) + toDrop tid bk.refs := by
  show toDrop tid (r :: bk.refs) ≤ _
  rw [toDrop_cons]
  by_cases h : r.tid = tid
  · by_cases hd : r.drop = true <;> simp [h, hd]
  · simp [h]

theorem toDrop_pushSlice {tid : Nat} {bk : BBook} {t : RTy} {nd : Bool} {a n : Nat} :
    toDrop tid (bk.pushSlice t nd a n).refs ≤ (if t.tid = tid then n else 0) + toDrop tid bk.refs := by
  unfold BBook.pushSlice
  split
  · exact Nat.le_add_left _ _
  · exact toDrop_push

theorem pushSlice_frames {bk : BBook} {t : RTy} {nd : Bool} {a n : Nat} : (bk.pushSlice t nd a n).frames = bk.frames := by
  unfold BBook.pushSlice
  split <;> rfl

/-- What a call that is over or waits leaves behind, when it is about values of type `tid`. -/
theorem land_same {types : Nat → RTy} {tid : Nat} {bk : BBook} {f : FBook} {resp : BResp} (k : Nat) (ht : (types f.r).tid = tid)
    (k1 : ∀ a n x, resp = .slice a n ∨ resp = .iterErr a n x ∨ resp = .panicked (some (a, n)) → n ≤ k)
    (k2 : (∃ q, resp = .wait q) → f.got.length ≤ k) (k3 : (∃ a, resp = .ref a) → 1 ≤ k) :
    toDrop tid (bk.land types f resp).refs + inHand types tid (bk.land types f resp).frames ≤
      k + toDrop tid bk.refs + inHand types tid bk.frames := by
  have hps : ∀ a n, n ≤ k → toDrop tid (bk.pushSlice (types f.r) f.nd a n).refs + inHand types tid (bk.pushSlice (types f.r) f.nd a n).frames ≤
      k + toDrop tid bk.refs + inHand types tid bk.frames := by
    intro a n hn
    have h2 := toDrop_pushSlice (tid := tid) (bk := bk) (t := types f.r) (nd := f.nd) (a := a) (n := n)
    rw [pushSlice_frames]
    rw [if_pos ht] at h2
    omega
  unfold BBook.land
  split
  · have := k2 ⟨_, rfl⟩
    rw [inHand_cons]
    simp only [FBook.inHand, ht, if_pos]
    omega
  · rename_i a
    have := k3 ⟨_, rfl⟩
    have h2 := toDrop_push (tid := tid) (bk := bk) (r := (types f.r).ref f.nd a 1)
    have h3 : (if ((types f.r).ref f.nd a 1).tid = tid then ((types f.r).ref f.nd a 1).count else 0) = 1 := by
      simp [RTy.ref, ht]
    rw [h3] at h2
    show _ + inHand types tid bk.frames ≤ _
    omega
  · rename_i a n
    exact hps a n (k1 a n none (.inl rfl))
  · rename_i a n x
    exact hps a n (k1 a n x (.inr (.inl rfl)))
  · rename_i a n
    exact hps a n (k1 a n none (.inr (.inr rfl)))
  · omega

/-- The same for another type: nothing of type `tid`. -/
theorem land_other {types : Nat → RTy} {tid : Nat} {bk : BBook} {f : FBook} {resp : BResp} (ht : (types f.r).tid ≠ tid) :
    toDrop tid (bk.land types f resp).refs + inHand types tid (bk.land types f resp).frames ≤
      toDrop tid bk.refs + inHand types tid bk.frames := by
  have hps : ∀ a n, toDrop tid (bk.pushSlice (types f.r) f.nd a n).refs + inHand types tid (bk.pushSlice (types f.r) f.nd a n).frames ≤
      toDrop tid bk.refs + inHand types tid bk.frames := by
    intro a n
    have h2 := toDrop_pushSlice (tid := tid) (bk := bk) (t := types f.r) (nd := f.nd) (a := a) (n := n)
    rw [pushSlice_frames]
    rw [if_neg ht] at h2
    omega
  unfold BBook.land
  split
  · rw [inHand_cons]
    simp only [FBook.inHand, ht, if_false]
    omega
  · rename_i a
    have h2 := toDrop_push (tid := tid) (bk := bk) (r := (types f.r).ref f.nd a 1)
    have h3 : (if ((types f.r).ref f.nd a 1).tid = tid then ((types f.r).ref f.nd a 1).count else 0) = 0 := by
      simp [RTy.ref, ht]
    rw [h3] at h2
    show _ + inHand types tid bk.frames ≤ _
    omega
  · exact hps _ _
  · exact hps _ _
  · exact hps _ _
  · exact Nat.le_refl _

/-- One for an item just taken. -/
def BOp.oneMore : BOp → Nat
  | .next (some _) => 1
  | _ => 0

theorem tell_got {f : FBook} {op : BOp} : (f.tell op).got.length = f.got.length + op.oneMore := by
  unfold FBook.tell BOp.oneMore
  cases op with
  | next x => cases x <;> simp
  | nth x => cases x <;> simp <;> split <;> simp
  | _ => simp

/-- The value to be counted: values dropped, to be dropped, or in the hands of a waiting call. -/
theorem at_most_once {b0 tr b bk} (h0 : BStart b0) (h : BSteps b0 b0.legal b0 ⟨[], [], []⟩ tr b bk) {tid : Nat}
    (hsz : ∀ r, (b0.types r).tid = tid → (b0.types r).tsize ≠ 0) :
    runs tid b.drops + toDrop tid bk.refs + inHand b0.types tid bk.frames ≤ handed b0.types tid ⟨[], [], []⟩ tr := by
  induction h with
  | nil => simp [h0.drops, handed, runs, toDrop, inHand]
  | @snoc tr b1 bk1 op r b2 bk2 hs ho hl hst ha ih =>
    obtain ⟨cs, items, hw⟩ := (show BReach b0 b1 bk1 from ⟨h0, tr, hs⟩).wk
    rw [handed_snoc hs]
    by_cases hd : op.drops
    · obtain ⟨out, evs, m, b', e1, e2, _, e3, e4, _⟩ := hw.drop hl hd
      rw [e1] at hst
      injection hst with hst
      injection hst with f1 f2
      subst f2
      have hle := runs_prefix (tid := tid) e3
      rw [runs_owed] at hle
      rw [e2, runs_append, runs_reverse, drop_book ha hd]
      have hz : toDrop tid [] = 0 := rfl
      dsimp only
      omega
    obtain ⟨e1, _⟩ := hw.other hl hd hst
    have hlg : BLegal b0.types b0.s.w.held b0.s.w.debug bk1 op := hl.1
    by_cases hr : op.isRet = true
    · cases hbf : bk1.frames with
      | nil => exact absurd hbf (legal_frames hr hlg)
      | cons fb fbs =>
        rcases hw.retStep hr hlg hl.2 hbf (by simp) with ⟨_, _, he⟩ | ⟨resp, b', cs', items', g1, _, _, _, g4, g5⟩
        · rw [he] at hst; cases hst
        rw [g1] at hst
        injection hst with hst
        injection hst with f1 f2
        subst f1 f2
        have hbk : bk2 = ({ bk1 with frames := fbs } : BBook).land b0.types (fb.tell op) resp := by
          cases ha with
          | direct => cases hr
          | other => exact bookAfter_ret hr hbf
        have hlo : looseDrops b0.types bk1 op = inFlight b0.types fb op := by unfold looseDrops; rw [hbf]
        rw [e1, hlo, runs_append, hbk]
        rw [hbf, inHand_cons] at ih
        have htr : (fb.tell op).r = fb.r := by unfold FBook.tell; split <;> first | rfl | (split <;> rfl)
        have hin := tell_got (f := fb) (op := op)
        have hkey : runs tid (inFlight b0.types fb op) +
            (toDrop tid (({ bk1 with frames := fbs } : BBook).land b0.types (fb.tell op) resp).refs +
              inHand b0.types tid (({ bk1 with frames := fbs } : BBook).land b0.types (fb.tell op) resp).frames) ≤
            fb.inHand b0.types tid + handedBy b0.types tid bk1 op + toDrop tid bk1.refs + inHand b0.types tid fbs := by
          by_cases ht : (b0.types fb.r).tid = tid
          · have hs0 := hsz fb.r ht
            have hF : fb.inHand b0.types tid = fb.got.length := by unfold FBook.inHand; rw [if_pos ht]
            have hH : op.oneMore ≤ handedBy b0.types tid bk1 op := by
              unfold BOp.oneMore handedBy
              rw [hbf]
              cases op with
              | next x => cases x <;> simp [ht]
              | _ => simp
            rw [hF]
            -- what comes out of the call
            have hland := fun k => land_same (types := b0.types) (bk := { bk1 with frames := fbs }) (f := fb.tell op) (resp := resp) k (tid := tid) (by rw [htr]; exact ht)
            dsimp only at hland
            -- from `Told`
            have hn : ∀ a n x, resp = .slice a n ∨ resp = .iterErr a n x → n ≤ (fb.tell op).got.length := by
              intro a n x hx
              rcases hx with rfl | rfl
              · unfold Told at g4
                simp only [if_neg hs0] at g4
                omega
              · obtain ⟨vs, q1, q2, _⟩ := g4
                rw [q1, q2]
                simp
            have hp : ∀ a n, resp = .panicked (some (a, n)) → n + (fb.tell op).pending.length ≤ (fb.tell op).got.length := by
              intro a n hx
              subst hx
              obtain ⟨vs, q1, q2, _⟩ := g4
              have := congrArg List.length q1
              rw [List.length_append] at this
              omega
            cases op with
            | ret res =>
              have hfl : runs tid (inFlight b0.types fb (.ret res)) = 0 := rfl
              rw [hfl, Nat.zero_add]
              cases res with
              | ok v =>
                have hh : handedBy b0.types tid bk1 (.ret (.ok v)) = 1 := by unfold handedBy; rw [hbf]; simp [ht]
                rw [hh]
                refine Nat.le_trans (hland (fb.got.length + 1) ?_ ?_ ?_) (by omega)
                · intro a n x hx
                  rcases hx with hx | hx | hx
                  · have := hn a n x (.inl hx); simp [FBook.tell] at this; omega
                  · have := hn a n x (.inr hx); simp [FBook.tell] at this; omega
                  · have := hp a n hx; simp [FBook.tell] at this; omega
                · intro _; simp [FBook.tell]
                · intro _; omega
              | err e =>
                have g5 : resp = .failed e := g5
                subst g5
                refine Nat.le_trans (hland 0 ?_ ?_ ?_) (by omega) <;> simp
            | panic =>
              have hfl : runs tid (inFlight b0.types fb .panic) ≤ fb.pending.length := by
                unfold inFlight
                rw [if_neg hs0]
                have : ∀ l : List Nat, runs tid (l.flatMap (b0.types fb.r).loose) ≤ l.length := ?_
                · exact this _
                intro l
                clear hland hn hp g4 g5 ih hin
                induction l with
                | nil => simp [runs]
                | cons v l ih' =>
                  rw [List.flatMap_cons, runs_append]
                  have := runs_loose (tid := tid) (t := b0.types fb.r) (v := v)
                  rw [if_pos ht] at this
                  simp only [List.length_cons]
                  omega
              have hpl : fb.pending.length ≤ fb.got.length := by
                unfold FBook.pending
                split
                · cases hg : fb.got.getLast? with
                  | none => simp
                  | some v =>
                    have : fb.got ≠ [] := by intro hc; rw [hc] at hg; cases hg
                    have := List.length_pos_iff.mpr this
                    simp
                    omega
                · simp
              refine Nat.le_trans (Nat.add_le_add hfl (hland (fb.got.length - fb.pending.length) ?_ ?_ ?_)) (by omega)
              · intro a n x hx
                rcases hx with hx | hx | hx
                · rcases g5 with q | q | ⟨_, a', n', q⟩ <;> rw [hx] at q <;> cases q
                · rcases g5 with q | q | ⟨_, a', n', q⟩ <;> rw [hx] at q <;> cases q
                · have := hp a n hx
                  simp only [FBook.tell] at this
                  omega
              · intro ⟨q, hx⟩
                rcases g5 with q' | q' | ⟨_, a', n', q'⟩ <;> rw [hx] at q' <;> cases q'
              · intro ⟨a, hx⟩
                rcases g5 with q' | q' | ⟨_, a', n', q'⟩ <;> rw [hx] at q' <;> cases q'
            | hint lower upper =>
              have hfl : runs tid (inFlight b0.types fb (.hint lower upper)) = 0 := rfl
              rw [hfl, Nat.zero_add]
              refine Nat.le_trans (hland fb.got.length ?_ ?_ ?_) (by omega)
              · intro a n x hx
                rcases hx with hx | hx | hx
                · have := hn a n x (.inl hx); simpa [FBook.tell] using this
                · have := hn a n x (.inr hx); simpa [FBook.tell] using this
                · have := hp a n hx; simp [FBook.tell] at this; omega
              · intro _; simp [FBook.tell]
              · intro ⟨a, hx⟩
                rcases g5 with ⟨q, q'⟩ | ⟨a', n', x', q'⟩ <;> rw [hx] at q' <;> cases q'
            | next x =>
              have hfl : runs tid (inFlight b0.types fb (.next x)) = 0 := by
                cases x with
                | none => rfl
                | some v => simp [inFlight, hs0, runs]
              rw [hfl, Nat.zero_add]
              refine Nat.le_trans (hland (fb.tell (.next x)).got.length ?_ ?_ ?_) (by omega)
              · intro a n y hx
                rcases hx with hx | hx | hx
                · exact hn a n y (.inl hx)
                · exact hn a n y (.inr hx)
                · have := hp a n hx; omega
              · intro _; exact Nat.le_refl _
              · intro ⟨a, hx⟩
                rcases g5 with ⟨q, q'⟩ | ⟨a', n', q'⟩ | ⟨q', _⟩ <;> rw [hx] at q' <;> cases q'
            | nth x =>
              have hfl : runs tid (inFlight b0.types fb (.nth x)) = 0 := by
                cases x with
                | none => rfl
                | some v => simp [inFlight, hs0, runs]
              rw [hfl, Nat.zero_add]
              refine Nat.le_trans (hland (fb.tell (.nth x)).got.length ?_ ?_ ?_) (by omega)
              · intro a n y hx
                rcases hx with hx | hx | hx
                · exact hn a n y (.inl hx)
                · exact hn a n y (.inr hx)
                · have := hp a n hx; omega
              · intro _; exact Nat.le_refl _
              · intro ⟨a, hx⟩
                rcases g5 with ⟨q, q'⟩ | ⟨a', n', q'⟩ | ⟨q', _⟩ <;> rw [hx] at q' <;> cases q'
            | _ => cases hr
          · -- another type
            have hfl : runs tid (inFlight b0.types fb op) = 0 := by
              unfold runs
              rw [List.length_eq_zero_iff, List.filter_eq_nil_iff]
              intro ev hev
              obtain ⟨v, rfl⟩ := inFlight_loose ev hev
              simp [DropEv.isRun, ht]
            rw [hfl, Nat.zero_add]
            have hland := land_other (types := b0.types) (bk := { bk1 with frames := fbs }) (f := fb.tell op) (resp := resp) (tid := tid) (by rw [htr]; exact ht)
            simp only at hland
            have : 0 ≤ fb.inHand b0.types tid := Nat.zero_le _
            omega
        omega
    · -- not an answer
      have hr : op.isRet = false := by simpa using hr
      have hlo : looseDrops b0.types bk1 op = [] := by
        unfold looseDrops
        split
        · cases op <;> first | rfl | (cases hr; done)
        · rfl
      rw [e1, hlo, List.nil_append]
      have hkey : toDrop tid bk2.refs + inHand b0.types tid bk2.frames ≤
          handedBy b0.types tid bk1 op + toDrop tid bk1.refs + inHand b0.types tid bk1.frames := by
        rw [ha.refs, ha.frames]
        cases op with
        | value e rr re v =>
          cases r with
          | ref a =>
            simp only [bookAfter]
            have h2 := toDrop_push (tid := tid) (bk := bk1) (r := (b0.types rr).ref (undropped (b0.types rr) e) a 1)
            have h3 : (if ((b0.types rr).ref (undropped (b0.types rr) e) a 1).tid = tid then ((b0.types rr).ref (undropped (b0.types rr) e) a 1).count else 0) =
                handedBy b0.types tid bk1 (.value e rr re v) := rfl
            rw [h3] at h2
            show _ + inHand b0.types tid bk1.frames ≤ _
            omega
          | _ => simp only [bookAfter]; omega
        | «with» e rr re =>
          simp only [bookAfter]
          split
          · rw [inHand_cons]
            simp only [FBook.inHand, List.length_nil, ite_self]
            omega
          · omega
        | fromIter e rr =>
          simp only [bookAfter]
          split
          · rw [inHand_cons]
            simp only [FBook.inHand, List.length_nil, ite_self]
            omega
          · omega
        | copySlice src es ea n =>
          simp only [bookAfter]
          split
          · show toDrop tid (_ :: bk1.refs) + inHand b0.types tid bk1.frames ≤ _
            rw [toDrop_cons]
            simp
          · omega
        | uninit l =>
          simp only [bookAfter]
          split
          · show toDrop tid (_ :: bk1.refs) + inHand b0.types tid bk1.frames ≤ _
            rw [toDrop_cons]
            simp
          · omega
        | direct o => simp only [bookAfter]; omega
        | write x v => simp only [bookAfter]; omega
        | reset => exact absurd trivial hd
        | send => exact absurd trivial hd
        | dropAll => exact absurd trivial hd
        | dropBlink => exact absurd trivial hd
        | ret => cases hr
        | panic => cases hr
        | hint => cases hr
        | next => cases hr
        | nth => cases hr
      omega

end Blink
