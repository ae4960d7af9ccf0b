import Verif.Spec.Blink
import Verif.Spec.Exec
/-
  An executable version of histories of a `Blink`, sound with respect to `BSteps`. Only used to show that concrete cases meet
  the hypotheses of the property theorems, and for counterexamples.
-/
namespace Blink

def pow2B (a : Nat) : Bool := decide (a = 2 ^ a.log2)

theorem pow2B_sound {a : Nat} (h : pow2B a = true) : ∃ k, a = 2 ^ k := ⟨_, by simpa [pow2B] using h⟩

def RTy.okB (t : RTy) : Bool :=
  pow2B t.talign && pow2B t.align && decide (t.talign ≤ t.align) && decide (t.tsize % t.talign = 0) && decide (t.size % t.align = 0) &&
  decide (t.okOff + t.tsize ≤ t.size) && decide (t.okOff % t.talign = 0) &&
  decide (t.disc = none → t.size = t.tsize ∧ t.align = t.talign ∧ t.okOff = 0) &&
  (match t.disc with | none => true | some d => decide (d < t.size)) &&
  (dropItem t.size t.align).validB && (Layout.mk t.tsize t.talign).validB

theorem RTy.okB_sound {t : RTy} (h : t.okB = true) : t.OK := by
  simp only [RTy.okB, Bool.and_eq_true, decide_eq_true_eq] at h
  obtain ⟨⟨⟨⟨⟨⟨⟨⟨⟨⟨h1, h2⟩, h3⟩, h4⟩, h5⟩, h6⟩, h7⟩, h8⟩, h9⟩, h10⟩, h11⟩ := h
  refine ⟨pow2B_sound h1, pow2B_sound h2, h3, h4, h5, h6, h7, h8, ?_, Layout.validB_sound h10, Layout.validB_sound h11⟩
  intro d hd
  rw [hd] at h9
  simpa using h9

def reOKB (t : RTy) (re : Layout) : Bool :=
  pow2B re.align && decide (t.size ≤ re.size) && decide (t.align ≤ re.align) && (dropItem re.size re.align).validB

theorem reOKB_sound {t : RTy} {re : Layout} (h : reOKB t re = true) : ReOK t re := by
  simp only [reOKB, Bool.and_eq_true, decide_eq_true_eq] at h
  exact ⟨pow2B_sound h.1.1.1, h.1.1.2, h.1.2, Layout.validB_sound h.2⟩

def readableB (F : List BaseBlk) (bk : BBook) (a n : Nat) : Bool :=
  decide (n = 0) || bk.refs.any (fun r => decide (r.addr ≤ a ∧ a + n ≤ r.addr + r.count * r.size)) ||
  bk.direct.any (fun o => decide (o.addr ≤ a ∧ a + n ≤ o.addr + o.len)) ||
  F.any (fun f => decide (f.addr ≤ a ∧ a + n ≤ f.addr + f.len))

theorem readableB_sound {F bk a n} (h : readableB F bk a n = true) : Readable F bk a n := by
  simp only [readableB, Bool.or_eq_true, decide_eq_true_eq, List.any_eq_true] at h
  rcases h with ((h | h) | h) | h
  · exact .inl h
  · exact .inr (.inl h)
  · exact .inr (.inr (.inl h))
  · exact .inr (.inr (.inr h))

/-- Checks legality (`lax = false`) or safety (`lax = true`). Direct calls are checked by `execWith`. -/
def mayB (lax : Bool) (types : Nat → RTy) (F : List BaseBlk) (dbg : Bool) (bk : BBook) : BOp → Bool
  | .value _ r re _ => decide ((types r).disc = none) && reOKB (types r) re
  | .with _ r re => reOKB (types r) re
  | .ret res =>
    match bk.frames with
    | f :: _ => decide (f.ask = .closure) && (match res with | .ok _ => true | .err _ => decide ((types f.r).disc ≠ none)) &&
        (lax || decide (f.nd = true → (types f.r).size ≤ (types f.r).tsize ∧ (types f.r).align ≤ (types f.r).talign))
    | [] => false
  | .panic => decide (bk.frames ≠ [])
  | .fromIter _ r => decide ((types r).disc = none)
  | .hint lower upper =>
    match bk.frames with
    | f :: _ => decide (f.ask = .sizeHint) && decide (lower < USIZE) && (match upper with | none => true | some u => decide (u < USIZE))
    | [] => false
  | .next x =>
    match bk.frames with
    | f :: _ => decide (f.ask = .next) && (lax || decide ((f.nd = false → f.ended = true → x = none) ∧
        (dbg = true → (types f.r).tsize = 0 → f.taken + 2 < USIZE ∧ (f.nd = false → x = none → f.taken ≠ 0))))
    | [] => false
  | .nth x =>
    match bk.frames with
    | f :: _ => (match f.ask with | .nth _ => true | _ => false) && (lax || decide (dbg = true → f.nd = false → x = none → f.taken ≠ 0))
    | [] => false
  | .copySlice src es ea n => readableB F bk src (n * es) && (Layout.mk (n * es) ea).validB
  | .uninit l => l.validB
  | .direct _ => false
  | .write x v => bk.refs.any (fun r => decide (r.addr ≤ x ∧ x < r.addr + r.count * r.size)) && v.plain
  | .reset => decide (bk.frames = [])
  | .send => decide (bk.frames = [])
  | .dropAll => decide (bk.frames = [])
  | .dropBlink => decide (bk.frames = [])

/-- Legal or safe, whatever the allocator. -/
def BState.mayPlain (b0 : BState) : Bool → BBook → BOp → Prop
  | false => BLegal b0.types b0.s.w.held b0.s.w.debug
  | true => b0.safe

theorem BState.mayPlain_of {b0 : BState} {lax bk op} (h : BLegal b0.types b0.s.w.held b0.s.w.debug bk op) : b0.mayPlain lax bk op := by
  cases lax
  · exact h
  · exact .inl h

theorem mayB_sound {b0 : BState} {lax bk op} (h : mayB lax b0.types b0.s.w.held b0.s.w.debug bk op = true) : b0.mayPlain lax bk op := by
  cases op with
  | value e r re v =>
    simp only [mayB, Bool.and_eq_true, decide_eq_true_eq] at h
    exact BState.mayPlain_of (.value h.1 (reOKB_sound h.2))
  | «with» e r re =>
    exact BState.mayPlain_of (.with (reOKB_sound h))
  | ret res =>
    simp only [mayB] at h
    split at h
    · rename_i f fs hf
      simp only [Bool.and_eq_true, Bool.or_eq_true, decide_eq_true_eq] at h
      obtain ⟨⟨h1, h2⟩, h3⟩ := h
      have he : ∀ e, res = .err e → (b0.types f.r).disc ≠ none := by
        intro e he
        rw [he] at h2
        simpa using h2
      cases lax with
      | false =>
        simp only [Bool.false_eq_true, false_or] at h3
        exact BLegal.ret hf h1 he h3
      | true => exact .inr (.inl ⟨f, fs, res, rfl, hf, h1, he⟩)
    · cases h
  | panic => exact BState.mayPlain_of (.panic (by simpa [mayB] using h))
  | fromIter e r =>
    simp only [mayB, decide_eq_true_eq] at h
    exact BState.mayPlain_of (.fromIter h)
  | hint lower upper =>
    simp only [mayB] at h
    split at h
    · rename_i f fs hf
      simp only [Bool.and_eq_true, decide_eq_true_eq] at h
      refine BState.mayPlain_of (.hint hf h.1.1 h.1.2 ?_)
      intro u hu
      have h2 := h.2
      rw [hu] at h2
      simpa using h2
    · cases h
  | next x =>
    simp only [mayB] at h
    split at h
    · rename_i f fs hf
      simp only [Bool.and_eq_true, Bool.or_eq_true, decide_eq_true_eq] at h
      cases lax with
      | false =>
        have h2 := h.2
        simp only [Bool.false_eq_true, false_or] at h2
        exact BLegal.next hf h.1 h2.1 h2.2
      | true => exact .inr (.inr (.inl ⟨f, fs, x, rfl, hf, h.1⟩))
    · cases h
  | nth x =>
    simp only [mayB] at h
    split at h
    · rename_i f fs hf
      simp only [Bool.and_eq_true, Bool.or_eq_true, decide_eq_true_eq] at h
      obtain ⟨h1, h2⟩ := h
      split at h1
      · rename_i k hk
        cases lax with
        | false =>
          simp only [Bool.false_eq_true, false_or] at h2
          exact BLegal.nth hf hk h2
        | true => exact .inr (.inr (.inr ⟨f, fs, k, x, rfl, hf, hk⟩))
      · cases h1
    · cases h
  | copySlice src es ea n =>
    simp only [mayB, Bool.and_eq_true] at h
    exact BState.mayPlain_of (.copySlice (readableB_sound h.1) (Layout.validB_sound h.2))
  | uninit l => exact BState.mayPlain_of (.uninit (Layout.validB_sound h))
  | direct op => cases h
  | write x v =>
    simp only [mayB, Bool.and_eq_true, List.any_eq_true, decide_eq_true_eq] at h
    obtain ⟨⟨r, hr, hx⟩, hv⟩ := h
    exact BState.mayPlain_of (.write hr hx hv)
  | reset => exact BState.mayPlain_of (.reset (by simpa [mayB] using h))
  | send => exact BState.mayPlain_of (.send (by simpa [mayB] using h))
  | dropAll => exact BState.mayPlain_of (.dropAll (by simpa [mayB] using h))
  | dropBlink => exact BState.mayPlain_of (.dropBlink (by simpa [mayB] using h))

/-- Checks `AKind.Asks`. -/
def AKind.asksB (k : AKind) (types : Nat → RTy) (bk : BBook) (op : BOp) : Bool :=
  match k with
  | .any exact _ _ =>
    match op with
    | .next x =>
      match bk.frames with
      | f :: _ => decide ((types f.r).tsize = 0) || !f.ended || decide (x = none)
      | [] => true
    | .fromIter e r => exact || undropped (types r) e || decide ((types r).tsize = 0)
    | .direct (.resize _ old _) => decide (0 < old.size)
    | .direct (.growZeroed _ old _) => decide (0 < old.size)
    | .direct (.deallocate _ n) => decide (0 < n)
    | _ => true
  | _ => true

theorem AKind.asksB_sound {k : AKind} {types bk op} (h : k.asksB types bk op = true) : k.Asks types bk op := by
  intro exact keeps others hk
  subst hk
  unfold AKind.asksB at h
  cases op with
  | next x =>
    intro f fs hf h1 h2
    dsimp only at h
    rw [hf] at h
    simpa [h1, h2] using h
  | fromIter e r => simpa [or_assoc] using h
  | direct o => cases o <;> first | trivial | simpa using h
  | _ => trivial

/-- Legal, or safe, or only meeting `BLegal`. -/
def BState.mayG (b0 : BState) (asks lax : Bool) (bk : BBook) (op : BOp) : Prop :=
  b0.mayPlain lax bk op ∧ (asks = true → b0.kind.Asks b0.types bk op)

/-- Legal or safe. -/
def BState.may (b0 : BState) : Bool → BBook → BOp → Prop
  | false => b0.legal
  | true => b0.safe

theorem BState.may_of_mayG {b0 : BState} {lax bk op} (h : b0.mayG (!lax) lax bk op) : b0.may lax bk op := by
  cases lax
  · exact ⟨h.1, h.2 rfl⟩
  · exact h.1

/-- Check, run, update the book. -/
def bexecG (b0 : BState) (asks lax : Bool) (b : BState) (bk : BBook) (op : BOp) : Option (BResp × BState × BBook) :=
  if b.over || (asks && !b0.kind.asksB b0.types bk op) then none
  else match op with
  | .direct o =>
    if o = .reset ∨ o = .resetFinal then none
    else match execWith (b.kind.step b.s o) bk.direct o with
    | none => none
    | some (r, s', L') => some (.direct r, { b with s := s' }, { bk with direct := L' })
  | op =>
    if mayB lax b0.types b0.s.w.held b0.s.w.debug bk op then
      match bstep b op with
      | .ok (r, b') => some (r, b', bookAfter b0.types b0.kind bk op r)
      | .error _ => none
    else none

theorem bexecG_sound {b0 : BState} {asks lax b bk op r b' bk'} (h : bexecG b0 asks lax b bk op = some (r, b', bk')) :
    b.over = false ∧ b0.mayG asks lax bk op ∧ bstep b op = .ok (r, b') ∧ BAfter b0.types b0.kind bk op r bk' := by
  unfold bexecG at h
  split at h
  · cases h
  rename_i hov
  have hover : b.over = false := by
    cases hb : b.over with
    | false => rfl
    | true => exact absurd (by simp [hb]) hov
  have hasks : asks = true → b0.kind.Asks b0.types bk op := by
    intro ha
    apply AKind.asksB_sound
    cases hq : b0.kind.asksB b0.types bk op with
    | true => rfl
    | false => exact absurd (by simp [ha, hq]) hov
  split at h
  · rename_i o
    split at h
    · cases h
    rename_i hn
    split at h
    · cases h
    rename_i r1 s1 L1 h1
    injection h with h
    injection h with h2 h3
    injection h3 with h3 h4
    subst h2 h3 h4
    obtain ⟨a1, a2, a3⟩ := execWith_sound h1
    refine ⟨hover, ⟨BState.mayPlain_of (.direct a1 ⟨fun hc => hn (.inl hc), fun hc => hn (.inr hc)⟩), hasks⟩, ?_, .direct a3⟩
    unfold bstep
    dsimp only
    rw [a2]
    rfl
  · rename_i op' hnd
    split at h
    · rename_i hm
      split at h
      · rename_i r1 b1 h1
        injection h with h
        injection h with h2 h3
        injection h3 with h3 h4
        subst h2 h3 h4
        exact ⟨hover, ⟨mayB_sound hm, hasks⟩, h1, .other fun o hc => hnd o hc⟩
      · cases h
    · cases h

/-- Check, run, update the book. -/
def bexec1 (b0 : BState) (lax : Bool) (b : BState) (bk : BBook) (op : BOp) : Option (BResp × BState × BBook) := bexecG b0 (!lax) lax b bk op

theorem bexec1_sound {b0 : BState} {lax b bk op r b' bk'} (h : bexec1 b0 lax b bk op = some (r, b', bk')) :
    b.over = false ∧ b0.may lax bk op ∧ bstep b op = .ok (r, b') ∧ BAfter b0.types b0.kind bk op r bk' := by
  obtain ⟨a1, a2, a3⟩ := bexecG_sound h
  exact ⟨a1, BState.may_of_mayG a2, a3⟩

/-- Run a list of actions. -/
def bexecAll (b0 : BState) (lax : Bool) (b : BState) (bk : BBook) : List BOp → Option (List (BOp × BResp) × BState × BBook)
  | [] => some ([], b, bk)
  | op :: ops =>
    match bexec1 b0 lax b bk op with
    | none => none
    | some (r, b', bk') =>
      match bexecAll b0 lax b' bk' ops with
      | none => none
      | some (tr, b'', bk'') => some ((op, r) :: tr, b'', bk'')

theorem BSteps.trans {b0 may b bk tr1 b1 bk1 tr2 b2 bk2} (h1 : BSteps b0 may b bk tr1 b1 bk1) (h2 : BSteps b0 may b1 bk1 tr2 b2 bk2) :
    BSteps b0 may b bk (tr1 ++ tr2) b2 bk2 := by
  induction h2 with
  | nil => simpa using h1
  | snoc _ ho hl hs ha ih => rw [← List.append_assoc]; exact ih.snoc ho hl hs ha

theorem bexecAll_sound {b0 : BState} {lax b bk ops tr b' bk'} (h : bexecAll b0 lax b bk ops = some (tr, b', bk')) :
    BSteps b0 (b0.may lax) b bk tr b' bk' := by
  induction ops generalizing b bk tr with
  | nil => simp only [bexecAll, Option.some.injEq, Prod.mk.injEq] at h; obtain ⟨rfl, rfl, rfl⟩ := h; exact .nil
  | cons op ops ih =>
    unfold bexecAll at h
    split at h
    · cases h
    rename_i r b1 bk1 h1
    split at h
    · cases h
    rename_i tr1 b2 bk2 h2
    simp only [Option.some.injEq, Prod.mk.injEq] at h
    obtain ⟨rfl, rfl, rfl⟩ := h
    obtain ⟨a1, a2, a3, a4⟩ := bexec1_sound h1
    have : BSteps b0 (b0.may lax) b bk [(op, r)] b1 bk1 := BSteps.snoc (tr := []) .nil a1 a2 a3 a4
    exact this.trans (ih h2)

/-! ### Concrete types and a concrete world -/

/-- A type table with the listed entries; all other entries are the unit type. -/
def typeTable (ts : List RTy) (n : Nat) : RTy := ts[n]?.getD ⟨0, 0, 1, false, false, 0, 1, 0, none⟩

theorem typeTable_ok {ts : List RTy} (h : ts.all RTy.okB = true) (n : Nat) : (typeTable ts n).OK := by
  unfold typeTable
  cases hn : ts[n]? with
  | none => exact RTy.okB_sound (by decide)
  | some t =>
    rw [List.all_eq_true] at h
    exact RTy.okB_sound (h t (List.mem_of_getElem? hn))

/-- Entry 0: 12 bytes aligned to 4, with destructor. 1: the same with an error type, so that the `Result` is 16 bytes. 2: one word
without destructor. 3: zero-sized with destructor. 4: one byte aligned to 1, with destructor. 5: 64 bytes aligned to 64, with
destructor. 6: a word without destructor and an error type, so that the `Result` is 16 bytes. -/
def demoTypes : List RTy :=
  [⟨10, 12, 4, true, false, 12, 4, 0, none⟩, ⟨10, 12, 4, true, false, 16, 4, 4, some 0⟩, ⟨11, 8, 8, false, false, 8, 8, 0, none⟩,
   ⟨12, 0, 1, true, false, 0, 1, 0, none⟩, ⟨13, 1, 1, true, true, 1, 1, 0, none⟩, ⟨14, 64, 64, true, false, 64, 64, 0, none⟩,
   ⟨11, 8, 8, false, false, 16, 8, 8, some 0⟩]

/-- A fresh `Blink` in `demoWorld`; the destructor runs listed in `panics` panic. -/
def bdemo (sizes : List Nat) (kind : AKind) (panics : List Nat := []) (debug : Bool := true) : BState where
  s := ⟨demoWorld sizes debug, ⟨0, 256⟩⟩
  types := typeTable demoTypes
  kind := kind
  root := 0
  adds := 0
  frames := []
  drops := []
  dtors := fun n => ⟨panics.contains n, fun _ => .uninit⟩
  over := false

theorem bdemo_start (sizes : List Nat) (kind : AKind) (panics : List Nat) (debug : Bool)
    (hk : ∀ exact keeps others, kind = .any exact keeps others → others = [⟨64, 64, ⟨64, 8⟩⟩] := by simp) : BStart (bdemo sizes kind panics debug) where
  alloc := fun _ => ⟨rfl, ⟨by simp [bdemo, demoWorld], by simp [bdemo, demoWorld], by simp [bdemo, demoWorld]⟩,
    fun _ => ⟨by simp [bdemo], by simp [bdemo], Nat.le_refl _⟩, rfl⟩
  world := ⟨by simp [bdemo, demoWorld], by simp [bdemo, demoWorld], by simp [bdemo, demoWorld]⟩
  others := fun exact keeps others h => (hk exact keeps others h)
  types := typeTable_ok (by decide)
  root := rfl
  frames := rfl
  drops := rfl
  adds := rfl
  over := rfl

/-- Check a decidable fact about the state and book before an action, its response, and the state and book after it. -/
def bdemoAt (b0 : BState) (lax : Bool) (ops : List BOp) (op : BOp) (f : BState → BBook → BResp → BState → BBook → Bool) : Bool :=
  match bexecAll b0 lax b0 ⟨[], [], []⟩ ops with
  | none => false
  | some (_, b, bk) =>
    match bexec1 b0 lax b bk op with
    | none => false
    | some (r, b', bk') => f b bk r b' bk'

theorem of_bdemoAt {b0 : BState} {ops : List BOp} {op : BOp} {f} (h0 : BStart b0) (h : bdemoAt b0 false ops op f = true) :
    ∃ b bk r b' bk', BReach b0 b bk ∧ b.over = false ∧ b0.legal bk op ∧ bstep b op = .ok (r, b') ∧
      BAfter b0.types b0.kind bk op r bk' ∧ f b bk r b' bk' = true := by
  unfold bdemoAt at h
  split at h
  · cases h
  rename_i tr b bk h1
  split at h
  · cases h
  rename_i r b' bk' h2
  obtain ⟨a1, a2, a3, a4⟩ := bexec1_sound h2
  exact ⟨b, bk, r, b', bk', ⟨h0, tr, bexecAll_sound h1⟩, a1, a2, a3, a4, h⟩

theorem of_bdemoAt_safe {b0 : BState} {ops : List BOp} {op : BOp} {f} (h0 : BStart b0) (h : bdemoAt b0 true ops op f = true) :
    ∃ b bk r b' bk', BReachSafe b0 b bk ∧ b.over = false ∧ b0.safe bk op ∧ bstep b op = .ok (r, b') ∧
      BAfter b0.types b0.kind bk op r bk' ∧ f b bk r b' bk' = true := by
  unfold bdemoAt at h
  split at h
  · cases h
  rename_i tr b bk h1
  split at h
  · cases h
  rename_i r b' bk' h2
  obtain ⟨a1, a2, a3, a4⟩ := bexec1_sound h2
  exact ⟨b, bk, r, b', bk', ⟨h0, tr, bexecAll_sound h1⟩, a1, a2, a3, a4, h⟩

/-- The same for an action that faults. -/
def bdemoFault (b0 : BState) (lax : Bool) (ops : List BOp) (op : BOp) (f : BState → BBook → Fault → Bool) : Bool :=
  match bexecAll b0 lax b0 ⟨[], [], []⟩ ops with
  | none => false
  | some (_, b, bk) =>
    match bstep b op with
    | .ok _ => false
    | .error e => !b.over && mayB lax b0.types b0.s.w.held b0.s.w.debug bk op && f b bk e

theorem of_bdemoFault_safe {b0 : BState} {ops : List BOp} {op : BOp} {f} (h0 : BStart b0) (h : bdemoFault b0 true ops op f = true) :
    ∃ b bk e, BReachSafe b0 b bk ∧ b.over = false ∧ b0.safe bk op ∧ bstep b op = .error e ∧ f b bk e = true := by
  unfold bdemoFault at h
  split at h
  · cases h
  rename_i tr b bk h1
  split at h
  · cases h
  rename_i e h2
  simp only [Bool.and_eq_true, Bool.not_eq_true'] at h
  exact ⟨b, bk, e, ⟨h0, tr, bexecAll_sound h1⟩, h.1.1, mayB_sound h.1.2, h2, h.2⟩

end Blink
