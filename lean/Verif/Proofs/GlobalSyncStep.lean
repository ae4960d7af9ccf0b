import Verif.Proofs.GlobalSync
/-
  One step of the system of threads using a global allocator with two modes.
-/
namespace Blink

/-- Actions after which the blocks of blink mode are gone (unless they panic). -/
def GAct.resets : GAct → Bool
  | .reset => true
  | .directMode => true
  | _ => false

/-- What is to be true of the memory `m` when a call returns `r`; `sn` is the memory when it was made. -/
def Returned (m sn : Nat → Byte) : GCall → Option Owned → GResp → Prop
  | .allocZeroed l, _, .ptr q => q ≠ 0 → ∀ i, i < l.size → m (q + i) = .raw 0
  | .realloc p l n, some b, .ptr q =>
    (q ≠ 0 → ∀ i, i < min l.size n → m (q + i) = sn (p + i)) ∧ (q = 0 → ∀ x, b.Has x → m x = sn x)
  | _, _, _ => True

/-- What a step does, apart from the invariant. -/
structure GSRes (K : GSBook) (a : GAct) (r : Option GResp) (g g' : GSS) : Prop where
  keep : ∀ b ∈ K.all, (a.resets = true → b ∈ K.direct) → ∀ x, b.Has x → (∀ v, a ≠ .write x v) → g'.s.w.mem x = g.s.w.mem x
  ret : ∀ t ch c ob q, a = .go t ch → r = some q → K.busy t = some (c, ob) → Returned g'.s.w.mem (K.snap t) c ob q

/-- Everything wanted of one step. -/
def GSGood (g0 g : GSS) (K : GSBook) (a : GAct) (x : Except Fault (Option (Option GResp × GSS))) : Prop :=
  (∃ e, GSBad g K a e ∧ x = .error e) ∨ x = .ok none ∨
  ∃ r g', x = .ok (some (r, g')) ∧ GSRes K a r g g' ∧ (∃ K', GSAfter g.s.w.mem K a r K') ∧
    ∀ K', GSAfter g.s.w.mem K a r K' → ∃ cs' D' I' B', GSInv g0 g' cs' D' K' I' B'

theorem GSS.setPc_same (g : GSS) (t : Nat) (pc : GPc) : (g.setPc t pc).pcs t = pc := if_pos rfl
theorem GSS.setPc_ne (g : GSS) {t u : Nat} (pc : GPc) (h : u ≠ t) : (g.setPc t pc).pcs u = g.pcs u := if_neg h

theorem lent_none : (lent none).length = 0 := rfl

/-! ### Starting a call -/

theorem GSInv.enter {g0 g cs D K I B} (h : GSInv g0 g cs D K I B) {t : Nat} {c : GCall} {i : Call} {K' : GSBook} {I' : Book}
    (hb : K.busy t = none) (hmd : K.blinkMode = true) (hl : SLegal I (.call t i)) (ha : SAfter g.s.w.mem I (.call t i) none I')
    (hK : K'.blinkMode = K.blinkMode) (hbz : ∀ u, u ≠ t → K'.busy u = K.busy u) (hsn : ∀ u, u ≠ t → K'.snap u = K.snap u)
    (hsz : ∀ b ∈ K'.blink, b ∈ K.blink) (hd : K'.direct = K.direct)
    (hcnt : K'.blink.length + (lent (K'.busy t)).length = K.blink.length)
    (hperm : ∀ R, I.owned.Perm (K.blink ++ R) → I'.owned.Perm (K'.blink ++ R))
    (ht : GTOK K.blinkMode g.s.w.mem (K'.snap t) (I'.snap t) (K'.busy t) (.blink c) (I'.busy t)) :
    ∃ g', g.enter t c i = .ok (some (none, g')) ∧ g'.s.w = g.s.w ∧ ∃ cs' B', GSInv g0 g' cs' D K' I' B' := by
  obtain ⟨hpc, hib⟩ := h.busy_none hb
  have hidle := (h.inner.busy_none hib).1
  have he : sstep g.s (.call t i) = .ok (some (none, g.s.setPc t (.rd i))) := by
    unfold sstep; dsimp only; rw [if_pos hidle]; rfl
  rcases h.inner.step hl with ⟨e, _, he'⟩ | he' | ⟨r, s', cs', he', _, hi⟩
  · rw [he] at he'; cases he'
  · rw [he] at he'; cases he'
  · rw [he] at he'
    cases he'
    obtain ⟨B', hi⟩ := hi I' ha
    refine ⟨({ g with s := g.s.setPc t (.rd i) } : GSS).setPc t (.blink c), by unfold GSS.enter; rw [ebind_ok' he]; rfl, rfl, cs', B', ?_⟩
    obtain ⟨R, S, f1, f2, f3, f4, f5, f6⟩ := h.fam.focus t
    rw [hpc, hb] at f1
    rw [hb] at f2 f3
    have hIo : ∀ u, u ≠ t → I'.busy u = I.busy u ∧ I'.snap u = I.snap u := by
      intro u hu
      cases ha <;> exact ⟨put_ne _ _ hu, put_ne _ _ hu⟩
    refine h.upd t hi ⟨rfl, hK⟩ ?_ h.good (fun b hb => h.sz b (hsz b hb)) h.dlg rfl (fun _ _ => ⟨fun _ _ _ _ => rfl, fun _ _ _ _ _ => rfl⟩)
      (fun u hu => ⟨hbz u hu, hsn u hu, GSS.setPc_ne _ _ hu, hIo u hu⟩) (by rw [GSS.setPc_same]; exact ht)
    refine f6 hK hbz (fun u hu => GSS.setPc_ne _ _ hu) ?_ ?_ ?_
    · rw [GSS.setPc_same]; exact hperm _ f1
    · rw [hd, hmd]; rw [hmd] at f2; exact f2
    · refine f3.trans ?_
      rw [hmd]
      show (if g.s.w.debug = true then _ else _) = if g.s.w.debug = true then _ else _
      simp only [if_true, lent_none, Nat.zero_add, ← Nat.add_assoc, hcnt]

theorem GSInv.park {g0 g cs D K I B} (h : GSInv g0 g cs D K I B) {t : Nat} {pc : GPc} {K' : GSBook}
    (hb : K.busy t = none) (hK : K'.blinkMode = K.blinkMode) (hbz : ∀ u, u ≠ t → K'.busy u = K.busy u)
    (hsn : ∀ u, u ≠ t → K'.snap u = K.snap u) (hsz : ∀ b ∈ K'.blink, b ∈ K.blink)
    (h1 : ∀ R, (K.blink ++ R).Perm (K'.blink ++ (xOf K.blinkMode (K'.busy t) pc ++ R)))
    (h2 : ∀ S, (K'.direct ++ if K.blinkMode then [] else lent (K'.busy t) ++ S).Perm (K.direct ++ if K.blinkMode then [] else S))
    (h3 : K'.blink.length + (if K.blinkMode then (lent (K'.busy t)).length else 0) = K.blink.length)
    (ht : GTOK K.blinkMode g.s.w.mem (K'.snap t) (I.snap t) (K'.busy t) pc none) :
    GSInv g0 (g.setPc t pc) cs D K' I B := by
  obtain ⟨hpc, hib⟩ := h.busy_none hb
  obtain ⟨R, S, f1, f2, f3, f4, f5, f6⟩ := h.fam.focus t
  rw [hpc, hb] at f1
  rw [hb] at f2 f3
  refine h.upd t (g' := g.setPc t pc) h.inner ⟨rfl, hK⟩ ?_ h.good (fun b hb => h.sz b (hsz b hb)) h.dlg rfl
    (fun _ _ => ⟨fun _ _ _ _ => rfl, fun _ _ _ _ _ => rfl⟩)
    (fun u hu => ⟨hbz u hu, hsn u hu, GSS.setPc_ne _ _ hu, rfl, rfl⟩) (by rw [GSS.setPc_same, hib]; exact ht)
  refine f6 hK hbz (fun u hu => GSS.setPc_ne _ _ hu) ?_ ?_ ?_
  · rw [GSS.setPc_same]; exact f1.trans (h1 R)
  · exact (h2 S).trans f2
  · refine f3.trans ?_
    show (if g.s.w.debug = true then _ else _) = if g.s.w.debug = true then _ else _
    cases hm : K.blinkMode
    · rw [hm] at h3; simp at h3; simp [h3]
    · rw [hm] at h3; simp only [if_true] at h3; simp only [if_true, lent_none, Nat.zero_add, ← Nat.add_assoc, h3]

theorem GSInv.blinkFits {g0 g cs D K I B} (h : GSInv g0 g cs D K I B) {b : Owned} (hb : b ∈ K.blink) {p : Nat} {l : Layout}
    (hi : b.Is p l) : b.Fits p l ∧ p ≠ 0 ∧ ∃ k, l.align = 2 ^ k := by
  have := h.sz b hb
  have h1 := hi.2.1
  refine ⟨⟨hi.1, hi.2.2, by omega, by omega⟩, ?_, hi.2.2 ▸ (h.blink_lok.each b hb).2.1⟩
  have := h.inner.pos (h.blink_mem hb)
  have := hi.1
  omega

theorem GSInv.directIs {g0 g cs D K I B} (h : GSInv g0 g cs D K I B) {b : Owned} (hb : b ∈ K.direct) {p : Nat} {l : Layout}
    (hi : b.Is p l) : p ≠ 0 ∧ ∃ k, l.align = 2 ^ k := by
  obtain ⟨d, hd, rfl⟩ := h.direct_mem hb
  have := h.direct_pos hd
  have h1 := hi.1
  simp only [BaseBlk.own, granted] at h1
  exact ⟨by omega, hi.2.2 ▸ (h.good d hd).pow⟩

theorem perm_erase_app {α} [BEq α] [LawfulBEq α] {l : List α} {b : α} (h : b ∈ l) (R : List α) : (l ++ R).Perm (l.erase b ++ (b :: R)) :=
  ((List.perm_cons_erase h).append_right R).trans List.perm_middle.symm

theorem len_erase {α} [BEq α] [LawfulBEq α] {l : List α} {b : α} (h : b ∈ l) : (l.erase b).length + 1 = l.length := by
  have := List.length_erase_of_mem h
  have := List.length_pos_of_mem h
  omega

theorem GSInv.callStep {g0 g cs D K I B} (h : GSInv g0 g cs D K I B) {t : Nat} {c : GCall} (hl : GSLegal K (.call t c)) :
    GSGood g0 g K (.call t c) (gsstep g (.call t c)) := by
  right; right
  have hb : K.busy t = none := by cases hl <;> assumption
  obtain ⟨hpc, hib⟩ := h.busy_none hb
  have hs : gsstep g (.call t c) = g.begin t c := by unfold gsstep; dsimp only; rw [if_pos hpc]
  rw [hs]
  have res : ∀ {g' : GSS} {r}, g'.s.w = g.s.w → GSRes K (.call t c) r g g' := by
    intro g' r he
    exact ⟨fun _ _ _ _ _ _ => by rw [he], by rintro _ _ _ _ _ ⟨⟩⟩
  by_cases hm : K.blinkMode = true
  · have hen : g.enabled = true := h.mode.trans hm
    have cur : ∀ {b}, b ∈ K.cur → b ∈ K.blink := by
      intro b hb; unfold GBook.cur at hb; rwa [if_pos hm] at hb
    have del : ∀ b, K.toGBook.del b = { K.toGBook with blink := K.blink.erase b } := by
      intro b; unfold GBook.del; rw [if_pos hm]
    cases hl with
    | alloc _ hv hz =>
      obtain ⟨g', e1, e2, cs', B', hi⟩ := h.enter (c := .alloc _) (i := .allocate _) hb hm (.allocate hib hv) .allocate
        (K' := { K with busy := put K.busy t (some (.alloc _, none)), snap := put K.snap t g.s.w.mem })
        rfl (fun u hu => put_ne _ _ hu) (fun u hu => put_ne _ _ hu) (fun _ h => h) rfl (by dsimp only; rw [put_same]; rfl)
        (fun _ h => h) (by dsimp only; rw [put_same, put_same, put_same, put_same]; exact .bAlloc hm hv hz)
      refine ⟨none, g', ?_, res e2, ⟨_, .alloc⟩, ?_⟩
      · unfold GSS.begin; dsimp only; rw [if_pos hen]; exact e1
      · intro K' ha; cases ha; exact ⟨_, _, _, _, hi⟩
    | allocZeroed _ hv hz =>
      obtain ⟨g', e1, e2, cs', B', hi⟩ := h.enter (c := .allocZeroed _) (i := .allocate _) hb hm (.allocate hib hv) .allocate
        (K' := { K with busy := put K.busy t (some (.allocZeroed _, none)), snap := put K.snap t g.s.w.mem })
        rfl (fun u hu => put_ne _ _ hu) (fun u hu => put_ne _ _ hu) (fun _ h => h) rfl (by dsimp only; rw [put_same]; rfl)
        (fun _ h => h) (by dsimp only; rw [put_same, put_same, put_same, put_same]; exact .bZeroed hm hv hz)
      refine ⟨none, g', ?_, res e2, ⟨_, .allocZeroed⟩, ?_⟩
      · unfold GSS.begin; dsimp only; rw [if_pos hen]; exact e1
      · intro K' ha; cases ha; exact ⟨_, _, _, _, hi⟩
    | @dealloc _ b p l _ ho hi =>
      have key : ∀ b : Owned, b ∈ K.cur → b.Is p l → ∃ g', g.enter t (.dealloc p l) (.deallocate p l.size) = .ok (some (none, g')) ∧
          g'.s.w = g.s.w ∧ ∃ cs' B' I', GSInv g0 g' cs' D
            { toGBook := K.del b, busy := put K.busy t (some (.dealloc p l, some b)), snap := put K.snap t g.s.w.mem } I' B' := by
        intro b ho hi
        have hbb := cur ho
        obtain ⟨hf, hp, hpow⟩ := h.blinkFits hbb hi
        have hd : b.addr = p ∧ b.size ≤ l.size ∧ l.size ≤ b.len := ⟨hf.1, hf.2.2.1, hf.2.2.2⟩
        obtain ⟨g', e1, e2, cs', B', hi⟩ := h.enter (c := .dealloc p l) (i := .deallocate p l.size) hb hm
          (.deallocate hib (h.blink_mem hbb) hd) (.deallocate (h.blink_mem hbb) hd)
          (K' := { toGBook := K.del b, busy := put K.busy t (some (.dealloc p l, some b)), snap := put K.snap t g.s.w.mem })
          (by rw [del]) (fun u hu => put_ne _ _ hu) (fun u hu => put_ne _ _ hu) (by rw [del]; exact fun _ h => List.mem_of_mem_erase h)
          (by rw [del]) (by rw [del]; dsimp only; rw [put_same]; exact len_erase hbb)
          (by
            intro R hR
            rw [del]; dsimp only
            have := hR.erase b
            rwa [List.erase_append_left _ hbb] at this)
          (by dsimp only; rw [put_same, put_same, put_same, put_same]; exact .bDealloc hm hi)
        exact ⟨g', e1, e2, cs', B', _, hi⟩
      obtain ⟨g', e1, e2, _⟩ := key b ho hi
      have hp := (h.blinkFits (cur ho) hi).2.1
      refine ⟨none, g', ?_, res e2, ⟨_, .dealloc ho hi⟩, ?_⟩
      · unfold GSS.begin; dsimp only; rw [if_neg hp, if_pos hen]; exact e1
      · intro K' ha
        cases ha with
        | dealloc ho' hi' =>
          obtain ⟨g'', e1', _, cs', B', I', hI⟩ := key _ ho' hi'
          rw [e1] at e1'; cases e1'
          exact ⟨_, _, _, _, hI⟩
    | @realloc _ b p l n _ ho hi hz =>
      cases hlf : layoutFrom n l.align with
      | none =>
        refine ⟨none, g.setPc t (.fin (.realloc p l n) .err), ?_, res rfl, ⟨_, .realloc ho hi⟩, ?_⟩
        · unfold GSS.begin; dsimp only; rw [hlf]; rfl
        · intro K' ha
          cases ha with
          | @realloc _ b _ _ _ ho hi =>
            have hbb := cur ho
            refine ⟨_, _, _, _, h.park hb (by rw [del]) (fun u hu => put_ne _ _ hu) (fun u hu => put_ne _ _ hu)
              (by rw [del]; exact fun _ h => List.mem_of_mem_erase h) ?_ ?_ ?_ ?_⟩
            · intro R; rw [del]; dsimp only; rw [put_same, hm]; exact perm_erase_app hbb R
            · intro S; rw [del, hm]; exact .refl _
            · rw [del, hm]; dsimp only; rw [put_same]; exact len_erase hbb
            · dsimp only; rw [put_same, put_same]; exact .finReallocErr (fun _ => h.sz b hbb) (by rw [hm]; simp) (fun _ _ => rfl)
      | some new =>
        have key : ∀ b : Owned, b ∈ K.cur → b.Is p l →
            ∃ g', g.enter t (.realloc p l n) (.resize p l ⟨n, l.align⟩) = .ok (some (none, g')) ∧
            g'.s.w = g.s.w ∧ ∃ cs' B' I', GSInv g0 g' cs' D
              { toGBook := K.del b, busy := put K.busy t (some (.realloc p l n, some b)), snap := put K.snap t g.s.w.mem } I' B' := by
          intro b ho hi
          have hbb := cur ho
          obtain ⟨hf, hp, hpow⟩ := h.blinkFits hbb hi
          obtain ⟨hv, rfl⟩ := layoutFrom_valid hpow hlf
          obtain ⟨g', e1, e2, cs', B', hi⟩ := h.enter (c := .realloc p l n) (i := .resize p l ⟨n, l.align⟩) hb hm
            (.resize hib (h.blink_mem hbb) hf hv) (.resize (h.blink_mem hbb) hf)
            (K' := { toGBook := K.del b, busy := put K.busy t (some (.realloc p l n, some b)), snap := put K.snap t g.s.w.mem })
            (by rw [del]) (fun u hu => put_ne _ _ hu) (fun u hu => put_ne _ _ hu) (by rw [del]; exact fun _ h => List.mem_of_mem_erase h)
            (by rw [del]) (by rw [del]; dsimp only; rw [put_same]; exact len_erase hbb)
            (by
              intro R hR
              rw [del]; dsimp only
              have := hR.erase b
              rwa [List.erase_append_left _ hbb] at this)
            (by dsimp only; rw [put_same, put_same, put_same, put_same]; exact .bRealloc hm hi (h.sz b hbb) hz rfl)
          exact ⟨g', e1, e2, cs', B', _, hi⟩
        obtain ⟨g', e1, e2, _⟩ := key b ho hi
        obtain ⟨_, hp, hpow⟩ := h.blinkFits (cur ho) hi
        obtain ⟨_, rfl⟩ := layoutFrom_valid hpow hlf
        refine ⟨none, g', ?_, res e2, ⟨_, .realloc ho hi⟩, ?_⟩
        · unfold GSS.begin; dsimp only; rw [hlf]; dsimp only; rw [if_pos hen, if_neg hp]; exact e1
        · intro K' ha
          cases ha with
          | realloc ho' hi' =>
            obtain ⟨g'', e1', _, cs', B', I', hI⟩ := key _ ho' hi'
            rw [e1] at e1'; cases e1'
            exact ⟨_, _, _, _, hI⟩
  · have hm : K.blinkMode = false := by simpa using hm
    have hen : ¬ g.enabled = true := by rw [h.mode, hm]; simp
    have cur : ∀ {b}, b ∈ K.cur → b ∈ K.direct := by
      intro b hb; unfold GBook.cur at hb; rwa [if_neg (by rw [hm]; simp)] at hb
    have del : ∀ b, K.toGBook.del b = { K.toGBook with direct := K.direct.erase b } := by
      intro b; unfold GBook.del; rw [if_neg (by rw [hm]; simp)]
    have pk : ∀ {b : Owned} {c : GCall} {pc : GPc}, b ∈ K.cur →
        xOf false (some (c, some b)) pc = [] →
        GTOK false g.s.w.mem g.s.w.mem (I.snap t) (some (c, some b)) pc none →
        GSInv g0 (g.setPc t pc) cs D
          { toGBook := K.del b, busy := put K.busy t (some (c, some b)), snap := put K.snap t g.s.w.mem } I B := by
      intro b c pc ho hx ht
      refine h.park hb (by rw [del]) (fun u hu => put_ne _ _ hu) (fun u hu => put_ne _ _ hu) (by rw [del]; exact fun _ h => h) ?_ ?_ ?_ ?_
      · intro R; rw [del]; dsimp only; rw [put_same, hm, hx]; exact .refl _
      · intro S; rw [del, hm]; dsimp only; rw [put_same]; exact (perm_erase_app (cur ho) S).symm
      · rw [del, hm]; rfl
      · dsimp only; rw [put_same, put_same, hm]; exact ht
    cases hl with
    | @alloc _ l _ hv hz =>
      refine ⟨none, g.setPc t (.direct (.alloc l)), ?_, res rfl, ⟨_, .alloc⟩, ?_⟩
      · unfold GSS.begin; dsimp only; rw [if_neg hen]; rfl
      · intro K' ha; cases ha
        refine ⟨_, _, _, _, h.park hb rfl (fun u hu => put_ne _ _ hu) (fun u hu => put_ne _ _ hu) (fun _ h => h) ?_ ?_ ?_ ?_⟩
        · intro R; exact .refl _
        · intro S; dsimp only; rw [put_same]; exact .refl _
        · dsimp only; rw [hm]; rfl
        · dsimp only; rw [put_same, put_same]; exact .dAlloc hm hv hz
    | @allocZeroed _ l _ hv hz =>
      refine ⟨none, g.setPc t (.direct (.allocZeroed l)), ?_, res rfl, ⟨_, .allocZeroed⟩, ?_⟩
      · unfold GSS.begin; dsimp only; rw [if_neg hen]; rfl
      · intro K' ha; cases ha
        refine ⟨_, _, _, _, h.park hb rfl (fun u hu => put_ne _ _ hu) (fun u hu => put_ne _ _ hu) (fun _ h => h) ?_ ?_ ?_ ?_⟩
        · intro R; exact .refl _
        · intro S; dsimp only; rw [put_same]; exact .refl _
        · dsimp only; rw [hm]; rfl
        · dsimp only; rw [put_same, put_same]; exact .dZeroed hm hv hz
    | @dealloc _ b p l _ ho hi =>
      have hp := (h.directIs (cur ho) hi).1
      refine ⟨none, g.setPc t (.direct (.dealloc p l)), ?_, res rfl, ⟨_, .dealloc ho hi⟩, ?_⟩
      · unfold GSS.begin; dsimp only; rw [if_neg hp, if_neg hen]; rfl
      · intro K' ha
        cases ha with
        | dealloc ho' hi' => exact ⟨_, _, _, _, pk ho' rfl (.dDealloc rfl hi')⟩
    | @realloc _ b p l n _ ho hi hz =>
      cases hlf : layoutFrom n l.align with
      | none =>
        have hbig : ISIZE < n + l.align := by
          unfold layoutFrom at hlf
          split at hlf
          · cases hlf
          · omega
        refine ⟨none, g.setPc t (.fin (.realloc p l n) .err), ?_, res rfl, ⟨_, .realloc ho hi⟩, ?_⟩
        · unfold GSS.begin; dsimp only; rw [hlf]; rfl
        · intro K' ha
          cases ha with
          | realloc ho' hi' => exact ⟨_, _, _, _, pk ho' rfl (.finReallocErr (by simp) (fun _ => hbig) (fun _ _ => rfl))⟩
      | some new =>
        have hv : n + l.align ≤ ISIZE := by
          unfold layoutFrom at hlf
          split at hlf
          · assumption
          · cases hlf
        refine ⟨none, g.setPc t (.direct (.realloc p l n)), ?_, res rfl, ⟨_, .realloc ho hi⟩, ?_⟩
        · unfold GSS.begin; dsimp only; rw [hlf]; dsimp only; rw [if_neg hen]; rfl
        · intro K' ha
          cases ha with
          | realloc ho' hi' => exact ⟨_, _, _, _, pk ho' rfl (.dRealloc rfl hi' hz hv (fun _ _ => rfl))⟩

/-! ### Inside the `SyncBlinkAlloc` -/

/-- Thread `t` comes back from the `SyncBlinkAlloc`. -/
theorem GSInv.leave {g0 g cs D K I B} (h : GSInv g0 g cs D K I B) {t : Nat} (hx : xOf K.blinkMode (K.busy t) (g.pcs t) = [])
    {s' : SS} {I' : Book} {pc : GPc} {cs' B'} (hs : s'.w = g.s.w) (hI : SInv (g0.origin D) s' cs' I' B')
    (ho : I'.owned = xOf K.blinkMode (K.busy t) pc ++ I.owned) (hbz : I'.busy = put I.busy t none) (hsn : I'.snap = I.snap)
    (ht : GTOK K.blinkMode g.s.w.mem (K.snap t) (I.snap t) (K.busy t) pc none) :
    GSInv g0 (({ g with s := s' } : GSS).setPc t pc) cs' D K I' B' := by
  obtain ⟨R, S, f1, f2, f3, f4, f5, f6⟩ := h.fam.focus t
  rw [hx] at f1
  refine h.upd t (g' := ({ g with s := s' } : GSS).setPc t pc) hI ⟨rfl, rfl⟩ ?_ h.good h.sz h.dlg (congrArg World.debug hs)
    (fun _ _ => ⟨fun _ _ _ _ => by show s'.w.mem _ = _; rw [hs], fun _ _ _ _ _ => by show s'.w.mem _ = _; rw [hs]⟩)
    (fun u hu => ⟨rfl, rfl, GSS.setPc_ne _ _ hu, by rw [hbz, put_ne _ _ hu], by rw [hsn]⟩)
    (by rw [GSS.setPc_same, hbz, put_same, hsn]; show GTOK _ s'.w.mem _ _ _ _ _; rw [hs]; exact ht)
  show GFam s'.w.debug _ _ _ _ _
  rw [hs]
  refine f6 rfl (fun _ _ => rfl) (fun u hu => GSS.setPc_ne _ _ hu) ?_ f2 f3
  rw [GSS.setPc_same, ho]
  refine (f1.append_left _).trans ?_
  rw [List.nil_append, ← List.append_assoc, ← List.append_assoc]
  exact List.perm_append_comm.append_right _

/-- Where a thread goes on when the `SyncBlinkAlloc` has answered. -/
def afterBlink (c : GCall) (r : Resp) : GPc :=
  match c, r with
  | .allocZeroed l, .block b => .zero l b 0
  | _, _ => .fin c r

theorem GSInv.goBlink {g0 g cs D K I B} (h : GSInv g0 g cs D K I B) {t : Nat} {ch : Choice} {c : GCall} (hpc : g.pcs t = .blink c) :
    GSGood g0 g K (.go t ch) (ggo g t ch) := by
  have ht := h.thr t
  rw [hpc] at ht
  obtain ⟨hm, ob, i, hbz, hib⟩ : K.blinkMode = true ∧ ∃ ob i, K.busy t = some (c, ob) ∧ I.busy t = some (i, ob) := by
    revert ht
    generalize K.busy t = bz, I.busy t = ibz
    intro ht
    cases ht <;> exact ⟨‹_›, _, _, rfl, rfl⟩
  have hx : xOf K.blinkMode (K.busy t) (g.pcs t) = [] := by rw [hpc]; rfl
  rcases h.inner.go t ch with ⟨e, hb, he⟩ | he | ⟨r, s', cs', he, hk, hI⟩
  · refine .inl ⟨e, .inl hb, ?_⟩
    unfold ggo; rw [hpc]; dsimp only; rw [ebind_err' he]
  · refine .inr (.inl ?_)
    unfold ggo; rw [hpc]; dsimp only; rw [ebind_ok' he]; rfl
  · right; right
    have hdbg := h.inner.go_debug he
    cases r with
    | none =>
      obtain ⟨B', hI⟩ := hI I .inside
      refine ⟨none, { g with s := s' }, ?_, ⟨?_, by rintro _ _ _ _ _ _ ⟨⟩⟩, ⟨_, .inside⟩, ?_⟩
      · unfold ggo; rw [hpc]; dsimp only; rw [ebind_ok' he]; rfl
      · intro b hb _ x hx' _
        rcases List.mem_append.mp hb with hb | hb
        · exact hk b (h.blink_mem hb) x hx'
        · obtain ⟨d, hd, rfl⟩ := h.direct_mem hb
          refine h.inner.go_out he hI (h.direct_out hd hx') ?_
          intro c hc
          have h3 := hI.arena.foreign (List.mem_append_left _ hd) hc
          have h4 := (h.good d hd).len
          have hok := hI.arena.ok c hc
          have := hok.lo; have := hok.hi
          simp only [BaseBlk.own, granted, Owned.Has] at hx'
          omega
      · intro K' ha
        cases ha
        obtain ⟨R, S, f1, f2, f3, f4, f5, f6⟩ := h.fam.focus t
        refine ⟨cs', D, I, B', h.upd t (g' := { g with s := s' }) hI ⟨rfl, rfl⟩ (by rw [hdbg]; exact h.fam) h.good h.sz h.dlg hdbg ?_
          (fun _ _ => ⟨rfl, rfl, rfl, rfl, rfl⟩) ?_⟩
        · intro u hu
          refine ⟨fun b hb x hx' => ?_, fun hf => by rw [hm] at hf; cases hf⟩
          exact hk b (f1.mem_iff.mpr (List.mem_append_right _ (List.mem_append_right _ (f4 u hu b hb)))) x hx'
        · refine (h.thr t).frame (fun b hb => ?_) (fun hf => by rw [hm] at hf; cases hf)
          rw [hx] at hb; cases hb
    | some r =>
      obtain ⟨hret, hw⟩ := h.inner.ret_ok he hib
      obtain ⟨B', hI⟩ := hI _ (.ret hib)
      have fin : ∀ {pc I'}, ggo g t ch = .ok (some (none, ({ g with s := s' } : GSS).setPc t pc)) → SInv (g0.origin D) s' cs' I' B' →
          I'.owned = xOf K.blinkMode (K.busy t) pc ++ I.owned → I'.busy = put I.busy t none → I'.snap = I.snap →
          GTOK K.blinkMode g.s.w.mem (K.snap t) (I.snap t) (K.busy t) pc none →
          ∃ r g', ggo g t ch = .ok (some (r, g')) ∧ GSRes K (.go t ch) r g g' ∧ (∃ K', GSAfter g.s.w.mem K (.go t ch) r K') ∧
            ∀ K', GSAfter g.s.w.mem K (.go t ch) r K' → ∃ cs' D' I' B', GSInv g0 g' cs' D' K' I' B' := by
        intro pc I' e1 e2 e3 e4 e5 e6
        refine ⟨none, _, e1, ⟨fun _ _ _ _ _ _ => by show s'.w.mem _ = _; rw [hw], by rintro _ _ _ _ _ _ ⟨⟩⟩, ⟨_, .inside⟩, ?_⟩
        intro K' ha; cases ha
        exact ⟨_, _, _, _, h.leave hx hw e2 e3 e4 e5 e6⟩
      have trim : ∀ {s : Slice} {l : Layout} {L bz}, SInv (g0.origin D) s' cs' ⟨Owned.of s l :: L, bz, I.snap⟩ B' →
          SInv (g0.origin D) s' cs' ⟨granted s.addr l :: L, bz, I.snap⟩ B' := by
        intro s l L bz hs
        have := (hs.fam.owned.each _ List.mem_cons_self).1
        exact hs.trim (o' := granted s.addr l) rfl rfl rfl rfl (Nat.le_refl _) this
      have run : ∀ {pc}, afterBlink c r = pc → ggo g t ch = .ok (some (none, ({ g with s := s' } : GSS).setPc t pc)) := by
        rintro pc rfl
        unfold ggo; rw [hpc]; dsimp only; rw [ebind_ok' he]
        dsimp only
        unfold afterBlink
        generalize c = c', r = r'
        cases c' <;> cases r' <;> rfl
      rw [hbz, hib] at ht
      have hbz' := hbz
      cases ht with
      | bAlloc _ hv hz =>
        cases hret with
        | allocOk =>
          refine fin (run rfl) (trim hI) (by rw [hbz]; rfl) rfl rfl ?_
          rw [hbz]; exact .finAlloc hm hz
        | allocErr =>
          refine fin (run rfl) hI (by rw [hbz]; rfl) rfl rfl ?_
          rw [hbz]; exact .finAllocErr hm
      | bZeroed _ hv hz =>
        cases hret with
        | allocOk =>
          refine fin (run rfl) hI (by rw [hbz]; rfl) rfl rfl ?_
          rw [hbz]; exact .zero hm hz (Nat.zero_le _) (by intro i hi; omega)
        | allocErr =>
          refine fin (run rfl) hI (by rw [hbz]; rfl) rfl rfl ?_
          rw [hbz]; exact .finZeroedErr hm
      | bDealloc _ hi =>
        cases hret with
        | dealloc =>
          refine fin (run rfl) hI (by rw [hbz]; rfl) rfl rfl ?_
          rw [hbz]; exact .finDealloc hm
      | bRealloc _ hi hb hz hs =>
        cases hret with
        | resizeOk hc =>
          refine fin (run rfl) (trim hI) (by rw [hbz]; rfl) rfl rfl ?_
          rw [hbz]; exact .finRealloc hm hz fun i hi => by rw [← hs]; exact hc i (by dsimp only; omega)
        | resizeErr hc =>
          refine fin (run rfl) hI (by rw [hbz, hm]; rfl) rfl rfl ?_
          rw [hbz]; exact .finReallocErr (fun _ => hb) (by rw [hm]; simp) fun x hx' => by rw [← hs]; exact hc x hx'

/-! ### Zeroing -/

theorem GSInv.goZero {g0 g cs D K I B} (h : GSInv g0 g cs D K I B) {t : Nat} {ch : Choice} {l : Layout} {s : Slice} {k : Nat}
    (hpc : g.pcs t = .zero l s k) : GSGood g0 g K (.go t ch) (ggo g t ch) := by
  have ht := h.thr t
  rw [hpc] at ht
  obtain ⟨hm, hz, hk, hc, hbz, hib⟩ : K.blinkMode = true ∧ 0 < l.size ∧ k ≤ s.len ∧ (∀ i, i < k → g.s.w.mem (s.addr + i) = .raw 0) ∧
      K.busy t = some (.allocZeroed l, none) ∧ I.busy t = none := by
    revert ht
    generalize K.busy t = bz, I.busy t = ibz
    intro ht
    cases ht
    exact ⟨‹_›, ‹_›, ‹_›, ‹_›, rfl, rfl⟩
  right; right
  obtain ⟨R, S, f1, f2, f3, f4, f5, f6⟩ := h.fam.focus t
  rw [hpc, hbz] at f1
  change I.owned.Perm (K.blink ++ (Owned.of s l :: R)) at f1
  have ho : Owned.of s l ∈ I.owned := f1.mem_iff.mpr (List.mem_append_right _ List.mem_cons_self)
  have hap : (K.blink ++ (Owned.of s l :: R)).Pairwise Owned.Apart :=
    (f1.pairwise_iff fun h => Owned.Apart.symm h).mp h.inner.fam.owned.apart
  rw [List.pairwise_append, List.pairwise_cons] at hap
  by_cases hlt : k < s.len
  · have hx : (Owned.of s l).Has (s.addr + k) := ⟨by simp only [Owned.of]; omega, by simp only [Owned.of]; omega⟩
    have hacc : g.s.w.accessible (s.addr + k) 1 = true := h.inner.arena.acc_used (h.inner.fam.owned.byte ho hx)
    have hother : ∀ {y}, y ≠ s.addr + k → setBytes g.s.w.mem (s.addr + k) 1 (fun _ => .raw 0) y = g.s.w.mem y :=
      fun hy => setBytes_out (by omega)
    rcases h.inner.step (.write (v := .raw 0) ho hx) with ⟨e, _, he⟩ | he | ⟨r, s', cs', he, _, hI⟩
    · cases he
    · cases he
    · cases he
      obtain ⟨B', hI⟩ := hI I .write
      have hap2 := h.apart
      rw [List.pairwise_append] at hap2
      refine ⟨none,
        ({ g with s := { g.s with w := { g.s.w with mem := setBytes g.s.w.mem (s.addr + k) 1 (fun _ => .raw 0) } } } : GSS).setPc t
          (.zero l s (k + 1)), ?_, ⟨?_, by rintro _ _ _ _ _ _ ⟨⟩⟩, ⟨_, .inside⟩, ?_⟩
      · unfold ggo; rw [hpc]; dsimp only; rw [if_pos hlt, if_pos hacc]; rfl
      · intro b hb _ x hx' _
        refine hother fun he => ?_
        rw [he] at hx'
        rcases List.mem_append.mp hb with hb | hb
        · exact hap.2.2 b hb _ List.mem_cons_self _ ⟨hx', hx⟩
        · obtain ⟨d, hd, rfl⟩ := h.direct_mem hb
          exact hap2.2.2 _ ho _ (List.mem_map_of_mem hd) _ ⟨hx, hx'⟩
      · intro K' ha
        cases ha
        refine ⟨cs', D, I, B', h.upd t hI ⟨rfl, rfl⟩ ?_ h.good h.sz h.dlg rfl ?_ (fun u hu => ⟨rfl, rfl, GSS.setPc_ne _ _ hu, rfl, rfl⟩) ?_⟩
        · refine f6 rfl (fun _ _ => rfl) (fun u hu => GSS.setPc_ne _ _ hu) ?_ f2 f3
          rw [GSS.setPc_same]; exact f1
        · intro u hu
          refine ⟨fun b hb x hx' => hother fun he => ?_, fun hf => by rw [hm] at hf; cases hf⟩
          rw [he] at hx'
          exact hap.2.1.1 b (f4 u hu b hb) _ ⟨hx, hx'⟩
        · rw [GSS.setPc_same, hbz, hib]
          refine .zero hm hz hlt fun i hi => ?_
          by_cases he : i = k
          · subst he
            exact setBytes_in (m := g.s.w.mem) (f := fun _ => .raw 0) (a := s.addr + i) (n := 1) (i := 0) Nat.one_pos
          · exact (hother (by omega)).trans (hc i (by omega))
  · have hlen := (h.inner.fam.owned.each _ ho).1
    have hperm := f1.trans List.perm_middle
    have hI := (h.inner.perm hperm).trim (o' := granted s.addr l) rfl rfl rfl rfl (Nat.le_refl _) hlen
    refine ⟨none, g.setPc t (.fin (.allocZeroed l) (.block s)), ?_, ⟨fun _ _ _ _ _ _ => rfl, by rintro _ _ _ _ _ _ ⟨⟩⟩, ⟨_, .inside⟩, ?_⟩
    · unfold ggo; rw [hpc]; dsimp only; rw [if_neg hlt]; rfl
    · intro K' ha
      cases ha
      refine ⟨cs, D, _, B, h.upd t hI ⟨rfl, rfl⟩ ?_ h.good h.sz h.dlg rfl (fun _ _ => ⟨fun _ _ _ _ => rfl, fun _ _ _ _ _ => rfl⟩)
        (fun u hu => ⟨rfl, rfl, GSS.setPc_ne _ _ hu, rfl, rfl⟩) ?_⟩
      · refine f6 rfl (fun _ _ => rfl) (fun u hu => GSS.setPc_ne _ _ hu) ?_ f2 f3
        rw [GSS.setPc_same, hbz]
        exact List.perm_middle.symm
      · rw [GSS.setPc_same, hbz]
        show GTOK _ _ _ _ _ _ (I.busy t)
        rw [hib]
        refine .finZeroed hm hz fun i hi => hc i ?_
        simp only [Owned.of] at hlen
        omega

/-! ### Returning -/

theorem GSInv.finish {g0 g cs D K I B} (h : GSInv g0 g cs D K I B) {t : Nat} {bs : List Owned} {cnt : Nat} (hib : I.busy t = none)
    (hX : xOf K.blinkMode (K.busy t) (g.pcs t) = if K.blinkMode then bs else [])
    (hY : K.blinkMode = false → lent (K.busy t) = bs)
    (hsz : K.blinkMode = true → ∀ b ∈ bs, 0 < b.size ∧ b.len = b.size)
    (hcnt : if g.s.w.debug = true ∧ K.blinkMode = true then
        ∀ S, g.allocations = (K.blink.length + ((lent (K.busy t)).length + S)) % USIZE → cnt = (bs.length + K.blink.length + S) % USIZE
      else cnt = g.allocations) :
    GSInv g0 (({ g with allocations := cnt } : GSS).setPc t .idle) cs D
      { K with toGBook := K.addL bs, busy := put K.busy t none } I B := by
  obtain ⟨R, S, f1, f2, f3, f4, f5, f6⟩ := h.fam.focus t
  rw [hX] at f1
  have hm' : ∀ b, K.blinkMode = b → (K.addL bs).blinkMode = b := by
    intro b hb; unfold GBook.addL; split <;> exact hb
  refine h.upd t (g' := ({ g with allocations := cnt } : GSS).setPc t .idle) h.inner ⟨rfl, hm' _ rfl⟩ ?_ h.good ?_ h.dlg rfl
    (fun _ _ => ⟨fun _ _ _ _ => rfl, fun _ _ _ _ _ => rfl⟩) (fun u hu => ⟨put_ne _ _ hu, rfl, GSS.setPc_ne _ _ hu, rfl, rfl⟩) ?_
  · refine f6 (hm' _ rfl) (fun u hu => put_ne _ _ hu) (fun u hu => GSS.setPc_ne _ _ hu) ?_ ?_ ?_
    · rw [GSS.setPc_same]
      dsimp only
      rw [put_same]
      unfold GBook.addL
      cases hm : K.blinkMode
      · rw [hm] at f1; exact f1
      · rw [hm] at f1
        refine f1.trans ?_
        rw [if_pos rfl, ← List.append_assoc]
        exact List.perm_append_comm.append_right _
    · dsimp only
      rw [put_same]
      unfold GBook.addL
      cases hm : K.blinkMode
      · rw [hm, hY hm] at f2
        refine List.Perm.trans ?_ f2
        show (bs ++ K.direct ++ S).Perm (K.direct ++ (bs ++ S))
        rw [← List.append_assoc]
        exact List.perm_append_comm.append_right _
      · rw [hm] at f2; exact f2
    · dsimp only
      rw [put_same]
      show cnt = if g.s.w.debug = true then _ else 0
      unfold GBook.addL
      cases hm : K.blinkMode
      · rw [hm, if_neg (by simp)] at hcnt
        rw [hcnt, f3, hm]
        rfl
      · rw [hm] at hcnt f3
        by_cases hd : g.s.w.debug = true
        · rw [if_pos ⟨hd, rfl⟩] at hcnt
          rw [if_pos hd] at f3 ⊢
          have := hcnt _ f3
          rw [this]
          simp [lent]
        · rw [if_neg (fun h => hd h.1)] at hcnt
          rw [if_neg hd] at f3 ⊢
          exact hcnt.trans f3
  · intro b hb
    dsimp only at hb
    unfold GBook.addL at hb
    split at hb
    · rename_i hm
      rcases List.mem_append.mp hb with hb | hb
      · exact hsz hm b hb
      · exact h.sz b hb
    · exact h.sz b hb
  · rw [GSS.setPc_same]
    dsimp only
    rw [put_same, hib]
    exact .idle

theorem GSInv.goFin {g0 g cs D K I B} (h : GSInv g0 g cs D K I B) {t : Nat} {ch : Choice} {c : GCall} {r : Resp}
    (hpc : g.pcs t = .fin c r) : GSGood g0 g K (.go t ch) (ggo g t ch) := by
  right; right
  have ht := h.thr t
  rw [hpc] at ht
  obtain ⟨bz, hbz⟩ : ∃ bz, K.busy t = bz := ⟨_, rfl⟩
  obtain ⟨ibz, hib⟩ : ∃ ibz, I.busy t = ibz := ⟨_, rfl⟩
  rw [hbz, hib] at ht
  have hX : xOf K.blinkMode (K.busy t) (g.pcs t) = xOf K.blinkMode bz (.fin c r) := by rw [hbz, hpc]
  have hpos : ∀ b ∈ xOf K.blinkMode bz (.fin c r), b.addr ≠ 0 := by
    intro b hb
    obtain ⟨R, S, f1, _⟩ := h.fam.focus t
    rw [hX] at f1
    have := h.inner.pos (f1.mem_iff.mpr (List.mem_append_right _ (List.mem_append_left _ hb)))
    omega
  have fin : ∀ ob, bz = some (c, ob) → ibz = none → Returned g.s.w.mem (K.snap t) c ob (c.resp r) →
      xOf K.blinkMode bz (.fin c r) = (if K.blinkMode then ggets c ob (c.resp r) else []) →
      (K.blinkMode = false → lent bz = ggets c ob (c.resp r)) →
      (K.blinkMode = true → ∀ b ∈ ggets c ob (c.resp r), 0 < b.size ∧ b.len = b.size) →
      (g.s.w.debug = true → K.blinkMode = true → ∀ S, g.allocations = (K.blink.length + ((lent bz).length + S)) % USIZE →
        g.counted c r = ((ggets c ob (c.resp r)).length + K.blink.length + S) % USIZE) →
      ∃ r g', ggo g t ch = .ok (some (r, g')) ∧ GSRes K (.go t ch) r g g' ∧ (∃ K', GSAfter g.s.w.mem K (.go t ch) r K') ∧
        ∀ K', GSAfter g.s.w.mem K (.go t ch) r K' → ∃ cs' D' I' B', GSInv g0 g' cs' D' K' I' B' := by
    rintro ob rfl rfl e1 e2 e3 e4 e5
    refine ⟨some (c.resp r), ({ g with allocations := g.counted c r } : GSS).setPc t .idle, ?_,
      ⟨fun _ _ _ _ _ _ => rfl, ?_⟩, ⟨_, .ret hbz⟩, ?_⟩
    · unfold ggo; rw [hpc]; rfl
    · rintro _ _ _ _ _ ⟨⟩ ⟨⟩ hb
      rw [hbz] at hb; cases hb
      exact e1
    · intro K' ha
      cases ha with
      | ret hb =>
        rw [hbz] at hb; cases hb
        refine ⟨cs, D, I, B, h.finish hib (by rw [hX]; exact e2) (by rw [hbz]; exact e3) e4 ?_⟩
        by_cases hd : g.s.w.debug = true ∧ K.blinkMode = true
        · rw [if_pos hd, hbz]; exact e5 hd.1 hd.2
        · rw [if_neg hd]
          unfold GSS.counted
          rw [if_neg (by rw [h.mode]; exact hd)]
  have hcnt : g.s.w.debug = true → K.blinkMode = true → g.s.w.debug = true ∧ g.enabled = true := fun h1 h2 => ⟨h1, h.mode.trans h2⟩
  cases ht with
  | @finAlloc l s hm hz =>
    have : s.addr ≠ 0 := hpos _ List.mem_cons_self
    have eg : ggets (.alloc l) none (GCall.resp (.alloc l) (.block s)) = [granted s.addr l] := by
      simp only [ggets, GCall.resp, GResp.ofResp]; rw [if_neg this]
    refine fin none rfl rfl trivial ?_ ?_ ?_ ?_
    · rw [eg, hm]; rfl
    · rw [hm]; simp
    · rw [eg]; intro _ b hb; rw [List.mem_singleton] at hb; subst hb; exact ⟨hz, rfl⟩
    · intro hd _ S hS
      unfold GSS.counted
      rw [eg, if_pos (hcnt hd hm)]
      simp only [lent, List.length_nil, List.length_cons] at *
      omega
  | finAllocErr hm =>
    refine fin none rfl rfl trivial ?_ ?_ ?_ ?_
    · rw [hm]; rfl
    · rw [hm]; simp
    · intro _ b hb; cases hb
    · intro hd _ S hS
      unfold GSS.counted
      rw [if_pos (hcnt hd hm)]
      simp only [lent, List.length_nil, ggets, GCall.resp, GResp.ofResp, if_true] at *
      omega
  | @finZeroed l s hm hz hc =>
    have : s.addr ≠ 0 := hpos _ List.mem_cons_self
    have eg : ggets (.allocZeroed l) none (GCall.resp (.allocZeroed l) (.block s)) = [granted s.addr l] := by
      simp only [ggets, GCall.resp, GResp.ofResp]; rw [if_neg this]
    refine fin none rfl rfl (fun _ => hc) ?_ ?_ ?_ ?_
    · rw [eg, hm]; rfl
    · rw [hm]; simp
    · rw [eg]; intro _ b hb; rw [List.mem_singleton] at hb; subst hb; exact ⟨hz, rfl⟩
    · intro hd _ S hS
      unfold GSS.counted
      rw [eg, if_pos (hcnt hd hm)]
      simp only [lent, List.length_nil, List.length_cons] at *
      omega
  | finZeroedErr hm =>
    refine fin none rfl rfl (fun hq => absurd rfl hq) ?_ ?_ ?_ ?_
    · rw [hm]; rfl
    · rw [hm]; simp
    · intro _ b hb; cases hb
    · intro hd _ S hS
      unfold GSS.counted
      rw [if_pos (hcnt hd hm)]
      simp only [lent, List.length_nil, ggets, GCall.resp, GResp.ofResp, if_true] at *
      omega
  | finDealloc hm =>
    refine fin _ rfl rfl trivial ?_ ?_ ?_ ?_
    · rw [hm]; rfl
    · rw [hm]; simp
    · intro _ b hb; cases hb
    · intro hd _ S hS
      unfold GSS.counted
      rw [if_pos (hcnt hd hm)]
      simp only [lent, List.length_nil, List.length_cons, ggets, GCall.resp] at *
      omega
  | @finRealloc b p l n s hm hz hc =>
    have : s.addr ≠ 0 := hpos _ List.mem_cons_self
    have eg : ggets (.realloc p l n) (some b) (GCall.resp (.realloc p l n) (.block s)) = [granted s.addr ⟨n, l.align⟩] := by
      simp only [ggets, GCall.resp, GResp.ofResp]; rw [if_neg this]
    refine fin _ rfl rfl ⟨fun _ => hc, fun h => absurd h this⟩ ?_ ?_ ?_ ?_
    · rw [eg, hm]; rfl
    · rw [hm]; simp
    · rw [eg]; intro _ b hb; rw [List.mem_singleton] at hb; subst hb; exact ⟨hz, rfl⟩
    · intro hd _ S hS
      unfold GSS.counted
      rw [eg, if_pos (hcnt hd hm)]
      simp only [lent, List.length_nil, List.length_cons] at *
      omega
  | @finReallocErr b p l n hb _ hc =>
    have eg : ggets (.realloc p l n) (some b) (GCall.resp (.realloc p l n) .err) = [b] := by
      simp only [ggets, GCall.resp, GResp.ofResp]; rw [if_pos trivial]
    refine fin _ rfl rfl ⟨fun h => absurd rfl h, fun _ => hc⟩ ?_ ?_ ?_ ?_
    · rw [eg]; rfl
    · rw [eg]; intro _; rfl
    · rw [eg]; intro hm b' hb'; rw [List.mem_singleton] at hb'; subst hb'; exact hb hm
    · intro hd hm S hS
      unfold GSS.counted
      rw [eg, if_pos (hcnt hd hm)]
      simp only [lent, List.length_nil, List.length_cons] at *
      omega

end Blink
