import Verif.Proofs.BlinkColl
import Verif.Proofs.BlinkDrop
/-
  Every action preserves the invariant.
-/
namespace Blink

/-- What the answer to a call that starts something says. -/
def StartTold (types : Nat → RTy) (m : Nat → Byte) : BOp → BResp → Prop
  | .value _ r _ v, resp => resp = .back (some v) ∨ ∃ a, resp = .ref a ∧ Holds m a (types r).tsize [v]
  | .with _ _ _, resp => resp = .back none ∨ resp = .wait .closure
  | .fromIter _ r, resp => resp = .wait .sizeHint ∨ (resp = .iterErr (types r).align 0 none ∧ (types r).tsize = 0)
  | _, _ => True

def BOp.isStart : BOp → Bool
  | .value .. => true
  | .with .. => true
  | .fromIter .. => true
  | _ => false

theorem noDropPath_eq (t : RTy) (e : Emplacer) : noDropPath t e = undropped t e := by
  cases e <;> simp [noDropPath, undropped, Emplacer.noDrop?]

theorem AKind.Asks.tells {k types bk e r} (h : AKind.Asks k types bk (.fromIter e r)) (h0 : (types r).tsize ≠ 0)
    (hn : undropped (types r) e = false) : k.exact = true := by
  cases k with
  | any ex kp o =>
    rcases h ex kp o rfl with h | h | h
    · exact h
    · rw [hn] at h; cases h
    · exact absurd h h0
  | _ => rfl

theorem AKind.Asks.fused {k types bk x} (h : AKind.Asks k types bk (.next x)) (ha : k.isAny = true) {f : FBook} {fs : List FBook}
    (hf : bk.frames = f :: fs) (h0 : (types f.r).tsize ≠ 0) (he : f.ended = true) : x = none := by
  cases k with
  | any ex kp o => exact h ex kp o rfl f fs hf h0 he
  | _ => cases ha

theorem AKind.Asks.sized {k types bk op} (h : AKind.Asks k types bk (.direct op)) (ha : k.isAny = true) : op.Sized := by
  cases k with
  | any ex kp o =>
    have := h ex kp o rfl
    cases op <;> first | exact this | trivial
  | _ => cases ha

theorem Wk.startStep {b0 b bk cs items K m0} {op : BOp} (h : Wk b0 b bk cs items [] K m0) (hs : op.isStart = true)
    (hl : BLegal b0.types b0.s.w.held b0.s.w.debug bk op) (hq : b0.kind.Asks b0.types bk op) :
    (∃ e, BadAnswer b.s.w e ∧ bstep b op = .error e) ∨
    ∃ resp b' cs' items', bstep b op = .ok (resp, b') ∧ b'.drops = b.drops ∧ b'.over = b.over ∧
      Wk b0 b' (bookAfter b0.types b0.kind bk op resp) cs' items' [] K m0 ∧ StartTold b0.types b'.s.w.mem op resp := by
  have hty : b.types = b0.types := h.types
  cases hl with
  | @value e r re v hd hre =>
    have ht := h.start.types r
    have hb : bstep b (.value e r re v) = b.start (.value e r re v) := rfl
    simp only [hb]
    unfold BState.start
    dsimp only
    rw [hty, noDropPath_eq]
    rcases h.allocate (emplaceLayout_valid (nd := undropped (b0.types r) e) ht hre) with ⟨er, hbad, he⟩ | ⟨o, s', cs', he, h1, h2⟩
    · left; exact ⟨er, hbad, by rw [ebind_err' he]⟩
    · right
      rw [ebind_ok' he]
      cases o with
      | none => exact ⟨_, _, cs', items, rfl, rfl, rfl, h1 rfl, .inl rfl⟩
      | some blk =>
        dsimp only
        obtain ⟨h3, h4, _⟩ := h2 blk rfl
        obtain ⟨p1, p2, p3⟩ := ht.plain hd
        obtain ⟨resp, b', cs2, items2, f1, f2, f3, f4, f5⟩ := h3.finish (res := .ok v) hre h4 (fun _ => ⟨by omega, by omega⟩) (by simp)
        refine ⟨resp, b', cs2, items2, f1, f2, f3, ?_⟩
        rcases f5 with ⟨v', g1, g2, g3, g4⟩ | ⟨e', g1, _⟩
        · injection g1 with g1
          subst g1
          rw [g2]
          exact ⟨g3, .inr ⟨_, rfl, g4⟩⟩
        · cases g1
  | @«with» e r re hre =>
    have ht := h.start.types r
    have hb : bstep b (.with e r re) = b.start (.with e r re) := rfl
    simp only [hb]
    unfold BState.start
    dsimp only
    rw [hty, noDropPath_eq]
    rcases h.allocate (emplaceLayout_valid (nd := undropped (b0.types r) e) ht hre) with ⟨er, hbad, he⟩ | ⟨o, s', cs', he, h1, h2⟩
    · left; exact ⟨er, hbad, by rw [ebind_err' he]⟩
    · right
      rw [ebind_ok' he]
      cases o with
      | none => exact ⟨_, _, cs', items, rfl, rfl, rfl, h1 rfl, .inl rfl⟩
      | some blk =>
        dsimp only
        obtain ⟨h3, h4, _⟩ := h2 blk rfl
        refine ⟨.wait .closure, { b with s := s', frames := .init r (undropped (b0.types r) e) re blk :: b.frames }, cs', items, rfl, rfl, rfl, ?_, .inr rfl⟩
        exact Wk.wait (E := []) (f := .init r (undropped (b0.types r) e) re blk)
          (fb := ⟨.closure, r, undropped (b0.types r) e, [], false, 0⟩) h3 ⟨rfl, rfl, rfl, hre, h4⟩
  | @fromIter e r hp =>
    have ht := h.start.types r
    obtain ⟨p1, p2, p3⟩ := ht.plain hp
    have hb : bstep b (.fromIter e r) = b.start (.fromIter e r) := rfl
    simp only [hb]
    unfold BState.start
    dsimp only
    rw [hty, noDropPath_eq]
    by_cases hsz : (b0.types r).size = 0
    · rw [if_pos hsz]
      cases hnd : undropped (b0.types r) e with
      | true =>
        rw [if_pos rfl]
        right
        refine ⟨.wait .sizeHint, { b with frames := .drain r true ⟨0, 0⟩ 0 .hint :: b.frames }, cs, items, rfl, rfl, rfl, ?_, .inl rfl⟩
        simp only [bookAfter]
        rw [hnd]
        refine Wk.wait (E := []) (f := .drain r true ⟨0, 0⟩ 0 .hint)
          (fb := ⟨.sizeHint, r, true, [], false, 0⟩) h
          ⟨rfl, rfl, rfl, hp, hsz, fun _ => by show 0 + 1 < USIZE; decide, (by intro hx; cases hx), (by decide), rfl, by simp⟩
      | false =>
        rw [if_neg (by simp)]
        rcases h.allocate (dropItem_zero_valid ht) with ⟨er, hbad, he⟩ | ⟨o, s', cs', he, h1, h2⟩
        · left; exact ⟨er, hbad, by rw [ebind_err' he]⟩
        · right
          rw [ebind_ok' he]
          cases o with
          | none => exact ⟨_, _, cs', items, rfl, rfl, rfl, h1 rfl, .inr ⟨rfl, by omega⟩⟩
          | some blk =>
            dsimp only
            obtain ⟨h3, h4, _⟩ := h2 blk rfl
            refine ⟨.wait .sizeHint, { b with s := s', frames := .drain r false blk 0 .hint :: b.frames }, cs', items, rfl, rfl, rfl, ?_, .inl rfl⟩
            simp only [bookAfter]
            rw [hnd]
            refine Wk.wait (b := { b with s := s' }) (bk := bk) (E := []) (f := .drain r false blk 0 .hint)
              (fb := ⟨.sizeHint, r, false, [], false, 0⟩) ?_
              ⟨rfl, rfl, rfl, hp, hsz, fun _ => by show 0 + 1 < USIZE; decide, fun _ => h4, (by decide), rfl, by simp⟩
            exact h3
    · rw [if_neg hsz]
      right
      refine ⟨.wait .sizeHint, { b with frames := .iter r (undropped (b0.types r) e) ⟨none, 0, 0, ⟨0, 1⟩⟩ .hint0 :: b.frames }, cs, items, rfl, rfl, rfl, ?_, .inl rfl⟩
      refine Wk.wait (E := []) (f := .iter r (undropped (b0.types r) e) ⟨none, 0, 0, ⟨0, 1⟩⟩ .hint0)
          (fb := ⟨.sizeHint, r, undropped (b0.types r) e, [], false, 0⟩) h ⟨[], ?_⟩
      exact ⟨rfl, rfl, rfl, hp, by omega, rfl, rfl, fun _ => ⟨rfl, rfl⟩, (by simp), fun _ => rfl, (by simp), fun hnd => hq.tells (by omega) hnd⟩
  | _ => cases hs

theorem iterHint_resp {b : BState} {r nd g ph lower upper resp b'} (h : b.iterHint r nd g ph lower upper = .ok (resp, b')) :
    (∃ q, resp = .wait q) ∨ ∃ a n x, resp = .iterErr a n x := by
  unfold BState.iterHint at h
  cases ph with
  | hint0 =>
    dsimp only at h
    split at h
    · obtain ⟨⟨o, b1⟩, h1, h2⟩ := ebind_split h
      cases o with
      | some g => injection h2 with h2; injection h2 with h2 _; exact .inl ⟨_, h2.symm⟩
      | none =>
        obtain ⟨⟨⟨a, n⟩, b2⟩, h3, h4⟩ := ebind_split h2
        injection h4 with h4; injection h4 with h4 _; exact .inr ⟨_, _, _, h4.symm⟩
    · injection h with h2; injection h2 with h2 _; exact .inl ⟨_, h2.symm⟩
  | hint x =>
    dsimp only at h
    split at h
    · obtain ⟨⟨⟨a, n⟩, b2⟩, h3, h4⟩ := ebind_split h
      injection h4 with h4; injection h4 with h4 _; exact .inr ⟨_, _, _, h4.symm⟩
    · obtain ⟨⟨o, b1⟩, h1, h2⟩ := ebind_split h
      cases o with
      | some g => injection h2 with h2; injection h2 with h2 _; exact .inl ⟨_, h2.symm⟩
      | none =>
        obtain ⟨⟨⟨a, n⟩, b2⟩, h3, h4⟩ := ebind_split h2
        injection h4 with h4; injection h4 with h4 _; exact .inr ⟨_, _, _, h4.symm⟩
  | one => cases h
  | fill l => cases h

theorem iterNext_resp {b : BState} {r nd g ph x resp b'} (h : b.iterNext r nd g ph x = .ok (resp, b')) :
    (∃ q, resp = .wait q) ∨ ∃ a n, resp = .slice a n := by
  unfold BState.iterNext at h
  cases ph with
  | hint0 => cases h
  | hint x => cases h
  | one =>
    cases x with
    | none =>
      obtain ⟨⟨⟨a, n⟩, b2⟩, h3, h4⟩ := ebind_split h
      injection h4 with h4; injection h4 with h4 _; exact .inr ⟨_, _, h4.symm⟩
    | some v => injection h with h2; injection h2 with h2 _; exact .inl ⟨_, h2.symm⟩
  | fill l =>
    dsimp only at h
    split at h
    · cases h
    · split at h
      · obtain ⟨⟨_, b1⟩, h1, h2⟩ := ebind_split h
        injection h2 with h2; injection h2 with h2 _; exact .inl ⟨_, h2.symm⟩
      · split at h
        · obtain ⟨⟨_, b1⟩, h1, h2⟩ := ebind_split h
          injection h2 with h2; injection h2 with h2 _; exact .inl ⟨_, h2.symm⟩
        · injection h with h2; injection h2 with h2 _; exact .inl ⟨_, h2.symm⟩

/-- What the answer of a waiting call says, in addition to `Told`. -/
def RetTold (t : RTy) (m : Nat → Byte) (f : FBook) : BOp → BResp → Prop
  | .ret (.ok v), resp => ∃ a, resp = .ref a ∧ Holds m a t.tsize [v]
  | .ret (.err e), resp => resp = .failed e
  | .panic, resp => resp = .aborted ∨ resp = .panicked none ∨ (f.nd = false ∧ ∃ a n, resp = .panicked (some (a, n)))
  | .hint _ _, resp => (∃ q, resp = .wait q) ∨ ∃ a n x, resp = .iterErr a n x
  | .next _, resp => (∃ q, resp = .wait q) ∨ (∃ a n, resp = .slice a n) ∨ (resp = .panicked none ∧ t.tsize = 0)
  | .nth _, resp => (∃ q, resp = .wait q) ∨ (∃ a n, resp = .slice a n) ∨ (resp = .panicked none ∧ t.tsize = 0)
  | _, _ => True

def BOp.isRet : BOp → Bool
  | .ret _ => true
  | .panic => true
  | .hint _ _ => true
  | .next _ => true
  | .nth _ => true
  | _ => false

theorem bstep_ret {b : BState} {f : Frame} {fs : List Frame} {op : BOp} (hr : op.isRet = true) (hf : b.frames = f :: fs) :
    bstep b op = ({ b with frames := fs } : BState).resume f op := by
  cases op <;> first | (cases hr; done) | (simp only [bstep, hf])

theorem bookAfter_ret {types kind bk op resp} {f : FBook} {fs : List FBook} (hr : BOp.isRet op = true) (hf : bk.frames = f :: fs) :
    bookAfter types kind bk op resp = ({ bk with frames := fs } : BBook).land types (f.tell op) resp := by
  cases op <;> first | (cases hr; done) | (simp only [bookAfter, hf])

/-- The frame under the waiting call. -/
theorem legal_frames {types F dbg bk op} (hr : BOp.isRet op = true) (hl : BLegal types F dbg bk op) : bk.frames ≠ [] := by
  cases hl with
  | ret hf => rw [hf]; simp
  | panic hf => exact hf
  | hint hf => rw [hf]; simp
  | next hf => rw [hf]; simp
  | nth hf => rw [hf]; simp
  | _ => cases hr

theorem Wk.frames_cons {b0 b bk cs items E K m0} (h : Wk b0 b bk cs items E K m0) (hf : bk.frames ≠ []) :
    ∃ f fs, b.frames = f :: fs := by
  have h1 := h.frames
  cases hb : b.frames with
  | cons f fs => exact ⟨f, fs, rfl⟩
  | nil =>
    rw [hb] at h1
    cases hk : bk.frames with
    | nil => exact absurd hk hf
    | cons g gs => rw [hk] at h1; exact h1.elim

theorem Wk.retStep {b0 b bk cs items K m0} {op : BOp} {fb : FBook} {fbs : List FBook} (h : Wk b0 b bk cs items [] K m0)
    (hr : op.isRet = true) (hl : BLegal b0.types b0.s.w.held b0.s.w.debug bk op) (hak : b0.kind.Asks b0.types bk op)
    (hbf : bk.frames = fb :: fbs)
    (hK : ∀ o ∈ K, o ∈ items.filterMap (·.blk) ++ (b.frames.tail.filterMap (Frame.own b0.types) ++ bk.direct)) :
    (∃ e, BadAnswer b.s.w e ∧ bstep b op = .error e) ∨
    ∃ resp b' cs' items', bstep b op = .ok (resp, b') ∧ b'.drops = inFlight b0.types fb op ++ b.drops ∧
      (b'.over = b.over ∨ (resp = .aborted ∧ b'.over = true)) ∧
      Wk b0 b' (bookAfter b0.types b0.kind bk op resp) cs' items' [] K m0 ∧
      Told (b0.types fb.r) b'.s.w.mem (fb.tell op) resp ∧ RetTold (b0.types fb.r) b'.s.w.mem fb op resp := by
  obtain ⟨f, fs, hf⟩ := h.frames_cons (legal_frames hr hl)
  rw [hf] at hK
  obtain ⟨fb', fbs', hbf', hok, hw⟩ := h.pop hf hK
  rw [hbf] at hbf'
  injection hbf' with e1 e2
  subst e1; subst e2
  rw [bstep_ret hr hf]
  simp only [bookAfter_ret hr hbf]
  cases hl with
  | @ret f1 fs1 res hf1 hq he hfit =>
    rw [hbf] at hf1
    injection hf1 with e1 e2
    subst e1
    cases f with
    | init r nd re blk =>
      obtain ⟨resp, b', cs', items', f1, f2, f3, f4, f5⟩ := Wk.finish (res := res) hw hok.re_ hok.len (fun hn => by have := hfit (hok.nd_.trans hn); rw [hok.r_] at this; exact this)
        (fun e h => by have := he e h; rw [hok.r_] at this; exact this)
      right
      refine ⟨resp, b', cs', items', f1, ?_, .inl f3, ?_⟩
      · rw [f2]; rfl
      · have hr1 := hok.r_
        have hnd1 := hok.nd_
        rcases f5 with ⟨v, g1, g2, g3, g4⟩ | ⟨e, g1, g2, g3⟩
        · subst g1 g2
          refine ⟨?_, trivial, _, rfl, by rw [hr1]; exact g4⟩
          show Wk b0 b' (BBook.push _ ((b0.types fb.r).ref fb.nd _ 1)) _ _ _ _ _
          rw [hr1, hnd1]
          exact g3
        · subst g1 g2
          exact ⟨g3, trivial, rfl⟩
    | iter r nd g ph =>
      obtain ⟨vs, hok⟩ := hok
      have := hok.ask
      rw [hq] at this
      cases ph <;> cases this
    | drain r nd blk d ph =>
      have := hok.ask
      rw [hq] at this
      cases ph <;> cases this
  | panic _ =>
    right
    cases f with
    | init r nd re blk =>
      refine ⟨.panicked none, _, cs, items, rfl, ?_, .inl rfl, hw.forgetAll, trivial, .inr (.inl rfl)⟩
      have : fb.pending = [] := by unfold FBook.pending; rw [hok.ask]; rfl
      simp [inFlight, this]
    | drain r nd blk d ph =>
      refine ⟨.panicked none, _, cs, items, rfl, ?_, .inl rfl, hw.forgetAll, trivial, .inr (.inl rfl)⟩
      have ht := h.start.types r
      have hp := ht.plain hok.plain
      have hsz := hok.sz
      simp only [inFlight]
      rw [hok.r_, if_pos (by omega)]
      rfl
    | iter r nd g ph =>
      obtain ⟨vs, hok⟩ := hok
      obtain ⟨resp, b', cs', items', e1, e2, e3, e4, e5, e6⟩ := Wk.iterPanic hw hok
      refine ⟨resp, b', cs', items', e1, e2, e3, e4, by rw [hok.r_]; exact e5, ?_⟩
      rcases e6 with e6 | e6 | e6
      · exact .inl e6
      · exact .inr (.inl e6.2)
      · exact .inr (.inr ⟨hok.nd_.trans e6.1, e6.2⟩)
  | @hint f1 fs1 lower upper hf1 hq hlo hu =>
    rw [hbf] at hf1
    injection hf1 with e1 e2
    subst e1
    cases f with
    | init r nd re blk => have := hok.ask; rw [hq] at this; cases this
    | iter r nd g ph =>
      obtain ⟨vs, hok⟩ := hok
      rcases Wk.iterHint (lower := lower) (upper := upper) hw hok hq with ⟨e, hbad, he⟩ | ⟨resp, b', cs', items', e1, e2, e3, e4, e5⟩
      · exact .inl ⟨e, hbad, he⟩
      · right
        refine ⟨resp, b', cs', items', e1, e2, .inl e3, e4, by rw [hok.r_]; exact e5, ?_⟩
        exact iterHint_resp e1
    | drain r nd blk d ph =>
      cases ph with
      | hint =>
        right
        obtain ⟨resp, b', cs', items', e1, e2, e3, e4, e5, e6⟩ := Wk.drainHint (lower := lower) hw hok
        exact ⟨resp, b', cs', items', e1, e2, .inl e3, e4, by rw [hok.r_]; exact e5, .inl e6⟩
      | next => have := hok.ask; rw [hq] at this; cases this
      | nth l => have := hok.ask; rw [hq] at this; cases this
  | @next f1 fs1 x hf1 hq hfused hz =>
    rw [hbf] at hf1
    injection hf1 with e1 e2
    subst e1
    right
    cases f with
    | init r nd re blk => have := hok.ask; rw [hq] at this; cases this
    | iter r nd g ph =>
      obtain ⟨vs, hok⟩ := hok
      have hnd := hok.nd_
      obtain ⟨resp, b', cs', items', e1, e2, e3, e4, e5⟩ := Wk.iterNext (x := x) hw hok hq (fun ho he => by
        have hp := (h.start.types r).plain hok.plain
        have hsz := hok.sz
        rcases ho with ho | ho
        · exact hfused (hnd.trans ho) he
        · exact hak.fused ho hbf (by rw [hok.r_]; omega) he)
      have hp := (h.start.types r).plain hok.plain
      have hsz := hok.sz
      refine ⟨resp, b', cs', items', e1, ?_, .inl e3, e4, by rw [hok.r_]; exact e5, ?_⟩
      · rw [e2]
        cases x with
        | none => rfl
        | some v => simp only [inFlight]; rw [hok.r_, if_neg (by omega)]; rfl
      · rcases iterNext_resp e1 with h1 | h1
        · exact .inl h1
        · exact .inr (.inl h1)
    | drain r nd blk d ph =>
      cases ph with
      | next =>
        obtain ⟨resp, b', cs', items', e1, e2, e3, e4, e5, e6⟩ := Wk.drainNext (x := x) none (.inl ⟨rfl, rfl, rfl⟩) hw hok
          (fun hd => by
            have hp := (h.start.types r).plain hok.plain
            have hsz := hok.sz
            have := hz hd (by rw [hok.r_]; omega)
            exact ⟨fun _ => this.1, fun hn => this.2 (hok.nd_.trans hn)⟩)
        have hp := (h.start.types r).plain hok.plain
        have hsz := hok.sz
        refine ⟨resp, b', cs', items', e1, e2, .inl e3, e4, by rw [hok.r_]; exact e5, ?_⟩
        rcases e6 with e6 | e6 | e6
        · exact .inr (.inr ⟨e6, by rw [hok.r_]; omega⟩)
        · exact .inr (.inl e6)
        · exact .inl e6
      | hint => have := hok.ask; rw [hq] at this; cases this
      | nth l => have := hok.ask; rw [hq] at this; cases this
  | @nth f1 fs1 k x hf1 hq hz =>
    rw [hbf] at hf1
    injection hf1 with e1 e2
    subst e1
    right
    cases f with
    | init r nd re blk => have := hok.ask; rw [hq] at this; cases this
    | iter r nd g ph =>
      obtain ⟨vs, hok⟩ := hok
      have := hok.ask; rw [hq] at this
      cases ph <;> cases this
    | drain r nd blk d ph =>
      cases ph with
      | nth l =>
        obtain ⟨resp, b', cs', items', e1, e2, e3, e4, e5, e6⟩ := Wk.drainNext (x := x) (some l) (.inr ⟨l, rfl, rfl, rfl⟩) hw hok
          (fun hd => ⟨(by simp), fun hn => hz hd (hok.nd_.trans hn)⟩)
        have hp := (h.start.types r).plain hok.plain
        have hsz := hok.sz
        refine ⟨resp, b', cs', items', e1, e2, .inl e3, e4, by rw [hok.r_]; exact e5, ?_⟩
        rcases e6 with e6 | e6 | e6
        · exact .inr (.inr ⟨e6, by rw [hok.r_]; omega⟩)
        · exact .inr (.inl e6)
        · exact .inl e6
      | hint => have := hok.ask; rw [hq] at this; cases this
      | next => have := hok.ask; rw [hq] at this; cases this
  | _ => cases hr

end Blink
