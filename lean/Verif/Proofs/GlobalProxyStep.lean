import Verif.Proofs.GlobalProxy
/-
  One step of a global allocator with proxies.
-/
namespace Blink

theorem gpstep_ok {x : GPS} {a : GAct} {r g'} (h : gsstep x.g a = .ok (some (r, g'))) :
    gpstep x (.glob a) = .ok (some (r.map .glob, { x with g := g' })) := by
  simp only [gpstep]; rw [ebind_ok' h]; rfl

theorem gpstep_none {x : GPS} {a : GAct} (h : gsstep x.g a = .ok none) : gpstep x (.glob a) = .ok none := by
  simp only [gpstep]; rw [ebind_ok' h]; rfl

theorem gpstep_err {x : GPS} {a : GAct} {e} (h : gsstep x.g a = .error e) : gpstep x (.glob a) = .error e := by
  simp only [gpstep]; rw [ebind_err' h]

/-- What is wanted of a step at the global allocator. -/
def GPGlob (x : GPS) (K : GPBook) (P : PBook) (a : GAct) : Prop :=
  ∃ r g', gsstep x.g a = .ok (some (r, g')) ∧ GPRes K (.glob a) (r.map .glob) x { x with g := g' } ∧
    (∃ G, GSAfter x.g.s.w.mem K.toGSBook a r G) ∧
    ∀ G, GSAfter x.g.s.w.mem K.toGSBook a r G → ∃ D Z' e, Shade x P (.glob a) (r.map .glob) { x with g := g' } { P with direct := D } e ∧
      GPTie { x with g := g' } { K with toGSBook := G } { P with direct := D } Z'

theorem GResp.map_inj {r r' : Option GResp} (h : r.map GPResp.glob = r'.map .glob) : r = r' := by
  cases r <;> cases r' <;> simp at h <;> first | rfl | rw [h]

theorem GPGlob.good {x K P a} (h : GPGlob x K P a) : GPGood x K P (.glob a) (gpstep x (.glob a)) := by
  obtain ⟨r, g', h1, h2, ⟨G, h3⟩, h4⟩ := h
  refine .inr (.inr ⟨_, _, gpstep_ok h1, h2, ⟨_, .glob h3⟩, ?_⟩)
  intro K' ha
  generalize hr : r.map GPResp.glob = r' at ha
  cases ha with
  | glob hG =>
    cases GResp.map_inj hr
    obtain ⟨D, Z', e, g1, g2⟩ := h4 _ hG
    exact ⟨_, Z', e, hr ▸ g1, g2⟩

/-- A step that changes no memory and does not return. -/
theorem GPRes.still {K : GPBook} {a : GPAct} {x x' : GPS} (h : x'.g.s.w.mem = x.g.s.w.mem) : GPRes K a none x x' :=
  ⟨fun _ _ _ _ _ => by rw [h], by rintro _ _ _ _ _ _ ⟨⟩⟩

/-! ### Starting a call -/

theorem GPTie.enter {p0 x K P Z} (hR : PReach p0 x.ps P) (h : GPTie x K P Z) {t : Nat} {c : GCall} {i : Call} {G : GSBook} {D : Book} {Z'}
    (hb : K.busy t = none) (hmd : K.blinkMode = true) (hpb : K.pbusy t = none) (hl : SLegal P.direct (.call t i))
    (ha : SAfter x.g.s.w.mem P.direct (.call t i) none D)
    (hG : G.blinkMode = K.blinkMode) (hbz : ∀ u, u ≠ t → G.busy u = K.busy u) (hsn : ∀ u, u ≠ t → G.snap u = K.snap u)
    (hsz : ∀ b ∈ G.blink, b ∈ K.blink) (hd : G.direct = K.direct) (hZ : ∀ z ∈ Z', z ∈ Z)
    (hown : D.owned.Perm (Z'.map Prod.snd))
    (hcnt : G.blink.length + (lent (G.busy t)).length = K.blink.length)
    (hperm : ∀ R, (Z.map Prod.fst).Perm (K.blink ++ R) → (Z'.map Prod.fst).Perm (G.blink ++ R))
    (ht : ∃ ibz, GTOK K.blinkMode x.g.s.w.mem (G.snap t) (D.snap t) (G.busy t) (.blink c) ibz ∧ CallLike ibz (D.busy t)) :
    ∃ g', x.g.enter t c i = .ok (some (none, g')) ∧ g'.s.w = x.g.s.w ∧
      Shade x P (.glob (.call t c)) none { x with g := g' } { P with direct := D } (some (.shared (.call t i), none)) ∧
      GPTie { x with g := g' } { K with toGSBook := G } { P with direct := D } Z' := by
  obtain ⟨hpc, hib⟩ := h.busy_none hb
  have hidle : x.g.s.pcs t = .idle := hR.idle (by rw [h.pbusy]; exact hpb) hib
  have he : sstep x.g.s (.call t i) = .ok (some (none, x.g.s.setPc t (.rd i))) := by
    unfold sstep; dsimp only; rw [if_pos hidle]; rfl
  refine ⟨({ x.g with s := x.g.s.setPc t (.rd i) } : GSS).setPc t (.blink c), by unfold GSS.enter; rw [ebind_ok' he]; rfl, rfl, ?_, ?_⟩
  · refine .glob .call (.call hl (by rw [h.pbusy]; exact hpb)) ?_ (.direct ha (.inl rfl))
    simp only [pstep]; rw [ebind_ok (show sstep x.ps.s _ = _ from he)]; rfl
  · obtain ⟨R, S, f1, f2, f3, f4, f5, f6⟩ := h.fam.focus t
    rw [hpc, hb] at f1
    rw [hb] at f2 f3
    have hIo : ∀ u, u ≠ t → D.busy u = P.direct.busy u ∧ D.snap u = P.direct.snap u := by
      intro u hu
      cases ha <;> exact ⟨put_ne _ _ hu, put_ne _ _ hu⟩
    refine h.upd t hmd ⟨rfl, hG⟩ hd (fun b hb => h.sz b (hsz b hb)) (fun z hz => h.short z (hZ z hz)) hown ?_
      (fun _ _ _ _ _ _ => rfl) (fun u hu => ⟨hbz u hu, hsn u hu, GSS.setPc_ne _ _ hu, hIo u hu⟩)
      (by dsimp only; rw [GSS.setPc_same]; exact ht) (fun _ => hpb)
    refine f6 hG hbz (fun u hu => GSS.setPc_ne _ _ hu) ?_ ?_ ?_
    · dsimp only; rw [GSS.setPc_same]; exact hperm _ f1
    · rw [hd, hmd]; rw [hmd] at f2; exact f2
    · refine f3.trans ?_
      rw [hmd]
      show (if x.g.s.w.debug = true then _ else _) = if x.g.s.w.debug = true then _ else _
      simp only [if_true, lent_none, Nat.zero_add, ← Nat.add_assoc, hcnt]

/-- A call that is refused before the `SyncBlinkAlloc` is entered. -/
theorem GPTie.park {x K P Z} (h : GPTie x K P Z) {t : Nat} {pc : GPc} {G : GSBook} (hmd : K.blinkMode = true) (hpb : K.pbusy t = none)
    (hb : K.busy t = none) (hG : G.blinkMode = K.blinkMode) (hbz : ∀ u, u ≠ t → G.busy u = K.busy u)
    (hsn : ∀ u, u ≠ t → G.snap u = K.snap u) (hsz : ∀ b ∈ G.blink, b ∈ K.blink) (hd : G.direct = K.direct)
    (h1 : ∀ R, (K.blink ++ R).Perm (G.blink ++ (xOf K.blinkMode (G.busy t) pc ++ R)))
    (h3 : G.blink.length + (lent (G.busy t)).length = K.blink.length)
    (ht : GTOK K.blinkMode x.g.s.w.mem (G.snap t) (P.direct.snap t) (G.busy t) pc none) :
    GPTie { x with g := x.g.setPc t pc } { K with toGSBook := G } P Z := by
  obtain ⟨hpc, hib⟩ := h.busy_none hb
  obtain ⟨R, S, f1, f2, f3, f4, f5, f6⟩ := h.fam.focus t
  rw [hpc, hb] at f1
  rw [hb] at f2 f3
  refine h.upd (x' := { x with g := x.g.setPc t pc }) (D := P.direct) t hmd ⟨rfl, hG⟩ hd (fun b hb => h.sz b (hsz b hb)) h.short h.own ?_
    (fun _ _ _ _ _ _ => rfl) (fun u hu => ⟨hbz u hu, hsn u hu, GSS.setPc_ne _ _ hu, rfl, rfl⟩)
    (by dsimp only; rw [GSS.setPc_same, hib]; exact ⟨_, ht, .none⟩) (fun _ => hpb)
  refine f6 hG hbz (fun u hu => GSS.setPc_ne _ _ hu) ?_ ?_ ?_
  · dsimp only; rw [GSS.setPc_same]; exact f1.trans (h1 R)
  · rw [hd, hmd]; rw [hmd] at f2; exact f2
  · refine f3.trans ?_
    rw [hmd]
    show (if x.g.s.w.debug = true then _ else _) = if x.g.s.w.debug = true then _ else _
    simp only [if_true, lent_none, Nat.zero_add, ← Nat.add_assoc, h3]

theorem GPTie.blinkFits {p0 x K P Z} (hR : PReach p0 x.ps P) (h : GPTie x K P Z) {b b' : Owned} (hb : b ∈ K.blink) (hsh : Short b b')
    (hb' : b' ∈ P.direct.owned) {p : Nat} {l : Layout} (hi : b.Is p l) : b'.Fits p l ∧ p ≠ 0 ∧ ∃ k, l.align = 2 ^ k := by
  have h1 := h.sz b hb
  obtain ⟨i1, i2, i3⟩ := hi
  obtain ⟨s1, s2, s3, s4, _⟩ := hsh
  obtain ⟨KS, cs, pend, hI⟩ := hR.inv
  obtain ⟨_, _, hS⟩ := hI.reach.inv
  refine ⟨⟨by omega, by rw [← s3]; exact i3, by omega, by omega⟩, ?_, ?_⟩
  · have := (C26_memory hR (.inl hb')).2.2.1
    omega
  · rw [← i3, s3]
    exact (hS.fam.owned.each b' (hI.tiles.memD hb')).2.1

theorem perm_drop {Z : List (Owned × Owned)} {b b' : Owned} (hz : (b, b') ∈ Z) {L R : List Owned} (hb : b ∈ L)
    (h : (Z.map Prod.fst).Perm (L ++ R)) : ((Z.erase (b, b')).map Prod.fst).Perm (L.erase b ++ R) := by
  have h1 := (List.perm_cons_erase hz).map Prod.fst
  have h2 := h1.symm.trans (h.trans ((List.perm_cons_erase hb).append_right R))
  exact h2.cons_inv

theorem perm_drop2 {Z : List (Owned × Owned)} {b b' : Owned} (hz : (b, b') ∈ Z) {L : List Owned} (hb : b' ∈ L)
    (h : L.Perm (Z.map Prod.snd)) : (L.erase b').Perm ((Z.erase (b, b')).map Prod.snd) := by
  have h1 := (List.perm_cons_erase hz).map Prod.snd
  have h2 := (List.perm_cons_erase hb).symm.trans (h.trans h1)
  exact h2.cons_inv

theorem GPTie.callStep {p0 x K P Z} (hR : PReach p0 x.ps P) (h : GPTie x K P Z) {t : Nat} {c : GCall}
    (hl : GSLegal K.toGSBook (.call t c)) (hm : K.blinkMode = true) (hpb : K.pbusy t = none) : GPGlob x K P (.call t c) := by
  have hb : K.busy t = none := by cases hl <;> assumption
  obtain ⟨hpc, hib⟩ := h.busy_none hb
  have hs : gsstep x.g (.call t c) = x.g.begin t c := by unfold gsstep; dsimp only; rw [if_pos hpc]
  unfold GPGlob
  rw [hs]
  have hen : x.g.enabled = true := h.mode.trans hm
  have cur : ∀ {b}, b ∈ K.cur → b ∈ K.blink := by
    intro b hb; unfold GBook.cur at hb; rwa [if_pos hm] at hb
  have del : ∀ b, K.toGBook.del b = { K.toGBook with blink := K.blink.erase b } := by
    intro b; unfold GBook.del; rw [if_pos hm]
  cases hl with
  | alloc _ hv hz =>
    obtain ⟨g', e1, e2, e3, e4⟩ := h.enter hR (c := .alloc _) (i := .allocate _) hb hm hpb (.allocate hib hv) .allocate (Z' := Z)
      (G := { K.toGSBook with busy := put K.busy t (some (.alloc _, none)), snap := put K.snap t x.g.s.w.mem })
      rfl (fun u hu => put_ne _ _ hu) (fun u hu => put_ne _ _ hu) (fun _ h => h) rfl (fun _ h => h) h.own (by dsimp only; rw [put_same]; rfl)
      (fun _ h => h) (by dsimp only; rw [put_same, put_same, put_same, put_same]; exact ⟨_, .bAlloc hm hv hz, .bare⟩)
    refine ⟨none, g', ?_, .still (by dsimp only; rw [e2]), ⟨_, .alloc⟩, ?_⟩
    · unfold GSS.begin; dsimp only; rw [if_pos hen]; exact e1
    · intro G ha; cases ha; exact ⟨_, _, _, e3, e4⟩
  | allocZeroed _ hv hz =>
    obtain ⟨g', e1, e2, e3, e4⟩ := h.enter hR (c := .allocZeroed _) (i := .allocate _) hb hm hpb (.allocate hib hv) .allocate (Z' := Z)
      (G := { K.toGSBook with busy := put K.busy t (some (.allocZeroed _, none)), snap := put K.snap t x.g.s.w.mem })
      rfl (fun u hu => put_ne _ _ hu) (fun u hu => put_ne _ _ hu) (fun _ h => h) rfl (fun _ h => h) h.own (by dsimp only; rw [put_same]; rfl)
      (fun _ h => h) (by dsimp only; rw [put_same, put_same, put_same, put_same]; exact ⟨_, .bZeroed hm hv hz, .bare⟩)
    refine ⟨none, g', ?_, .still (by dsimp only; rw [e2]), ⟨_, .allocZeroed⟩, ?_⟩
    · unfold GSS.begin; dsimp only; rw [if_pos hen]; exact e1
    · intro G ha; cases ha; exact ⟨_, _, _, e3, e4⟩
  | @dealloc _ b p l _ ho hi =>
    have key : ∀ b : Owned, b ∈ K.cur → b.Is p l → ∃ g', x.g.enter t (.dealloc p l) (.deallocate p l.size) = .ok (some (none, g')) ∧
        p ≠ 0 ∧ g'.s.w = x.g.s.w ∧ ∃ D Z' e, Shade x P (.glob (.call t (.dealloc p l))) none { x with g := g' } { P with direct := D } e ∧
          GPTie { x with g := g' } { K with toGSBook :=
            { toGBook := K.del b, busy := put K.busy t (some (.dealloc p l, some b)), snap := put K.snap t x.g.s.w.mem } }
            { P with direct := D } Z' := by
      intro b ho hi
      have hbb := cur ho
      obtain ⟨b', hz, hsh, hb'⟩ := h.inZ hbb
      obtain ⟨hf, hp, hpow⟩ := h.blinkFits hR hbb hsh hb' hi
      have hd : b'.addr = p ∧ b'.size ≤ l.size ∧ l.size ≤ b'.len := ⟨hf.1, hf.2.2.1, hf.2.2.2⟩
      obtain ⟨g', e1, e2, e3, e4⟩ := h.enter hR (c := .dealloc p l) (i := .deallocate p l.size) hb hm hpb
        (.deallocate hib hb' hd) (.deallocate hb' hd) (Z' := Z.erase (b, b'))
        (G := { toGBook := K.del b, busy := put K.busy t (some (.dealloc p l, some b)), snap := put K.snap t x.g.s.w.mem })
        (by rw [del]) (fun u hu => put_ne _ _ hu) (fun u hu => put_ne _ _ hu) (by rw [del]; exact fun _ h => List.mem_of_mem_erase h)
        (by rw [del]) (fun _ h => List.mem_of_mem_erase h) (perm_drop2 hz hb' h.own) (by rw [del]; dsimp only; rw [put_same]; exact len_erase hbb)
        (by intro R hR; rw [del]; exact perm_drop hz hbb hR)
        (by dsimp only; rw [put_same, put_same, put_same, put_same]; exact ⟨_, .bDealloc hm hi, .block hsh⟩)
      exact ⟨g', e1, hp, e2, _, _, _, e3, e4⟩
    obtain ⟨g', e1, hp, e2, _⟩ := key b ho hi
    refine ⟨none, g', ?_, .still (by dsimp only; rw [e2]), ⟨_, .dealloc ho hi⟩, ?_⟩
    · unfold GSS.begin; dsimp only; rw [if_neg hp, if_pos hen]; exact e1
    · intro G ha
      cases ha with
      | dealloc ho' hi' =>
        obtain ⟨g'', e1', _, _, hI⟩ := key _ ho' hi'
        rw [e1] at e1'; cases e1'
        exact hI
  | @realloc _ b p l n _ ho hi hz =>
    cases hlf : layoutFrom n l.align with
    | none =>
      refine ⟨none, x.g.setPc t (.fin (.realloc p l n) .err), ?_, .still rfl, ⟨_, .realloc ho hi⟩, ?_⟩
      · unfold GSS.begin; dsimp only; rw [hlf]; rfl
      · intro G ha
        cases ha with
        | @realloc _ b _ _ _ ho hi =>
          have hbb := cur ho
          refine ⟨P.direct, Z, none, .silent rfl, h.park hm hpb hb (by rw [del]) (fun u hu => put_ne _ _ hu) (fun u hu => put_ne _ _ hu)
            (by rw [del]; exact fun _ h => List.mem_of_mem_erase h) (by rw [del]) ?_ ?_ ?_⟩
          · intro R; rw [del]; dsimp only; rw [put_same, hm]; exact perm_erase_app hbb R
          · rw [del]; dsimp only; rw [put_same]; exact len_erase hbb
          · dsimp only; rw [put_same, put_same]; exact .finReallocErr (fun _ => h.sz b hbb) (by rw [hm]; simp) (fun _ _ => rfl)
    | some new =>
      have key : ∀ b : Owned, b ∈ K.cur → b.Is p l →
          ∃ g', x.g.enter t (.realloc p l n) (.resize p l ⟨n, l.align⟩) = .ok (some (none, g')) ∧ p ≠ 0 ∧ new = ⟨n, l.align⟩ ∧
          g'.s.w = x.g.s.w ∧ ∃ D Z' e, Shade x P (.glob (.call t (.realloc p l n))) none { x with g := g' } { P with direct := D } e ∧
          GPTie { x with g := g' } { K with toGSBook :=
            { toGBook := K.del b, busy := put K.busy t (some (.realloc p l n, some b)), snap := put K.snap t x.g.s.w.mem } }
            { P with direct := D } Z' := by
        intro b ho hi
        have hbb := cur ho
        obtain ⟨b', hzz, hsh, hb'⟩ := h.inZ hbb
        obtain ⟨hf, hp, hpow⟩ := h.blinkFits hR hbb hsh hb' hi
        obtain ⟨hv, hnew⟩ := layoutFrom_valid hpow hlf
        rw [hnew] at hv
        obtain ⟨g', e1, e2, e3, e4⟩ := h.enter hR (c := .realloc p l n) (i := .resize p l ⟨n, l.align⟩) hb hm hpb
          (.resize hib hb' hf hv) (.resize hb' hf) (Z' := Z.erase (b, b'))
          (G := { toGBook := K.del b, busy := put K.busy t (some (.realloc p l n, some b)), snap := put K.snap t x.g.s.w.mem })
          (by rw [del]) (fun u hu => put_ne _ _ hu) (fun u hu => put_ne _ _ hu) (by rw [del]; exact fun _ h => List.mem_of_mem_erase h)
          (by rw [del]) (fun _ h => List.mem_of_mem_erase h) (perm_drop2 hzz hb' h.own) (by rw [del]; dsimp only; rw [put_same]; exact len_erase hbb)
          (by intro R hR; rw [del]; exact perm_drop hzz hbb hR)
          (by dsimp only; rw [put_same, put_same, put_same, put_same]; exact ⟨_, .bRealloc hm hi (h.sz b hbb) hz rfl, .block hsh⟩)
        exact ⟨g', e1, hp, hnew, e2, _, _, _, e3, e4⟩
      obtain ⟨g', e1, hp, rfl, e2, _⟩ := key b ho hi
      refine ⟨none, g', ?_, .still (by dsimp only; rw [e2]), ⟨_, .realloc ho hi⟩, ?_⟩
      · unfold GSS.begin; dsimp only; rw [hlf]; dsimp only; rw [if_pos hen, if_neg hp]; exact e1
      · intro G ha
        cases ha with
        | realloc ho' hi' =>
          obtain ⟨g'', e1', _, _, _, hI⟩ := key _ ho' hi'
          rw [e1] at e1'; cases e1'
          exact hI

/-! ### Inside the `SyncBlinkAlloc` -/

/-- Bytes of what callers and other calls have, if the `SyncBlinkAlloc` is used directly but not reset. -/
theorem GPTie.resOf {p0 x K P Z} (hR : PReach p0 x.ps P) (h : GPTie x K P Z) {a : GAct} {a' : Act} (hl : PLegal P (.shared a')) {r' g'}
    (hs : pstep x.ps (.shared a') = .ok (some (r', ({ x with g := g' } : GPS).ps))) (hr : ¬ a'.isReset)
    (hw : ∀ y v, a' = .write y v → a = .write y v ∨ ∃ b ∈ Z.map Prod.fst, b.Has y ∧ ∃ R, (Z.map Prod.fst).Perm (K.blink ++ b :: R)) :
    GPRes K (.glob a) none x { x with g := g' } := by
  refine ⟨?_, by rintro _ _ _ _ _ _ ⟨⟩⟩
  intro b y hy hne hb
  by_cases hwy : ∃ v, a' = .write y v
  · obtain ⟨v, rfl⟩ := hwy
    rcases hw y v rfl with rfl | ⟨c, hc, hcy, R, hp⟩
    · exact absurd rfl (hne v)
    · exfalso
      rcases hb with ⟨hb, _⟩ | ⟨i, hb, _⟩
      · have hap := h.apart hR (ids := []) .nil
        rw [List.flatMap_nil, List.append_nil] at hap
        have hap := (hp.pairwise_iff fun h => Owned.Apart.symm h).mp hap
        rw [List.pairwise_append] at hap
        exact hap.2.2 b hb c List.mem_cons_self y ⟨hy, hcy⟩
      · have hap := h.apart hR (ids := [i]) (by simp)
        rw [List.pairwise_append] at hap
        exact hap.2.2 c hc b (by simpa using hb) y ⟨hcy, hy⟩
  · refine h.kept hR hl hs hy (fun v he => hwy ⟨v, by injection he⟩) ?_
    rcases hb with ⟨hb, _⟩ | ⟨i, hb, _⟩
    · obtain ⟨b', hz, _⟩ := h.inZ hb
      exact .inl ⟨List.mem_map_of_mem (f := Prod.fst) hz, fun a'' he => by injection he with he; subst he; exact hr⟩
    · exact .inr ⟨i, hb, by simp, by simp, by simp⟩

theorem Act.go_noReset {t ch} : ¬ (Act.go t ch).isReset := by rintro (h | h | h) <;> cases h
theorem Act.write_noReset {y v} : ¬ (Act.write y v).isReset := by rintro (h | h | h) <;> cases h

theorem PReach.snoc_debug {p0 ps K} (h : PReach p0 ps K) {a r ps' K'} (hl : PLegal K a) (hs : pstep ps a = .ok (some (r, ps')))
    (ha : PAfter ps.s.w.mem K a r K') : ps'.s.w.debug = ps.s.w.debug := (h.snoc hl hs ha).debug.trans h.debug.symm

theorem GPTie.goBlink {p0 x K P Z} (hR : PReach p0 x.ps P) (h : GPTie x K P Z) {t : Nat} {ch : Choice} {c : GCall}
    (hpc : x.g.pcs t = .blink c) : GPGood x K P (.glob (.go t ch)) (gpstep x (.glob (.go t ch))) := by
  obtain ⟨ibz, ht, hlike⟩ := h.thr t
  rw [hpc] at ht
  obtain ⟨hm, ob, i, hbz, rfl⟩ : K.blinkMode = true ∧ ∃ ob i, K.busy t = some (c, ob) ∧ ibz = some (i, ob) := by
    revert ht
    generalize K.busy t = bz
    intro ht
    cases ht <;> exact ⟨‹_›, _, _, rfl, rfl⟩
  have hx : xOf K.blinkMode (K.busy t) (x.g.pcs t) = [] := by rw [hpc]; rfl
  have hpb : K.pbusy t = none := h.one t (by rw [hbz]; simp)
  have hpb' : P.pbusy t = none := by rw [h.pbusy]; exact hpb
  have hgo : gsstep x.g (.go t ch) = ggo x.g t ch := rfl
  cases he : goStep x.g.s t ch with
  | error e =>
    refine .inl ⟨e, .inl (hR.go_err he), gpstep_err ?_⟩
    rw [hgo]; unfold ggo; rw [hpc]; dsimp only; rw [ebind_err' he]
  | ok y =>
    cases y with
    | none =>
      refine .inr (.inl (gpstep_none ?_))
      rw [hgo]; unfold ggo; rw [hpc]; dsimp only; rw [ebind_ok' he]; rfl
    | some y =>
      obtain ⟨r, s'⟩ := y
      have hps := hR.go_eq hpb' (ch := ch) (r := r) (s' := s') he
      refine GPGlob.good ?_
      unfold GPGlob
      rw [hgo]
      cases r with
      | none =>
        have hdbg := hR.snoc_debug .go hps (.direct .inside (.inl rfl))
        refine ⟨none, { x.g with s := s' }, ?_, ?_, ⟨_, .inside⟩, ?_⟩
        · unfold ggo; rw [hpc]; dsimp only; rw [ebind_ok' he]; rfl
        · exact h.resOf hR .go hps Act.go_noReset (fun _ _ he => by cases he)
        · intro G ha
          cases ha
          obtain ⟨R, S, f1, f2, f3, f4, f5, f6⟩ := h.fam.focus t
          refine ⟨P.direct, Z, _, .glob .go .go hps (.direct .inside (.inl rfl)),
            h.upd t (G := K.toGSBook) (D := P.direct) (x' := { x with g := { x.g with s := s' } }) hm ⟨rfl, rfl⟩ rfl h.sz h.short h.own ?_ ?_ (fun _ _ => ⟨rfl, rfl, rfl, rfl, rfl⟩)
              ?_ (fun _ => hpb)⟩
          · show GFam s'.w.debug _ _ _ _ _
            rw [show s'.w.debug = x.g.s.w.debug from hdbg]; exact h.fam
          · intro u hu b hb y hy
            exact h.kept hR .go hps hy (by simp) (.inl ⟨f1.mem_iff.mpr (List.mem_append_right _ (List.mem_append_right _ (f4 u hu b hb))),
              fun a' he => by injection he with he; subst he; exact Act.go_noReset⟩)
          · obtain ⟨ibz, g1, g2⟩ := h.thr t
            refine ⟨ibz, g1.frame (fun b hb => ?_) (fun hf => by rw [hm] at hf; cases hf), g2⟩
            rw [hx] at hb; cases hb
      | some r =>
        obtain ⟨ob', hib⟩ : ∃ ob', P.direct.busy t = some (i, ob') := by
          revert hlike
          generalize P.direct.busy t = z
          intro hlike
          cases hlike <;> exact ⟨_, rfl⟩
        obtain ⟨hw, hret⟩ := hR.ret_ok he hib
        change s'.w = x.g.s.w at hw
        change RetOK x.g.s.w.mem _ _ _ _ at hret
        have hA : PAfter x.ps.s.w.mem P (.shared (.go t ch)) (some r) _ :=
          .direct (.ret hib) (.inr fun t' ch' he => by injection he with he _; subst he; exact hpb')
        have hR' := hR.snoc .go hps hA
        have fin : ∀ {pc} {zs : List (Owned × Owned)}, ggo x.g t ch = .ok (some (none, ({ x.g with s := s' } : GSS).setPc t pc)) →
            zs.map Prod.snd = gets i ob' r → (∀ z ∈ zs, Short z.1 z.2) → zs.map Prod.fst = xOf K.blinkMode (K.busy t) pc →
            GTOK K.blinkMode x.g.s.w.mem (K.snap t) (P.direct.snap t) (K.busy t) pc none →
            ∃ r g', ggo x.g t ch = .ok (some (r, g')) ∧ GPRes K (.glob (.go t ch)) (r.map .glob) x { x with g := g' } ∧
              (∃ G, GSAfter x.g.s.w.mem K.toGSBook (.go t ch) r G) ∧
              ∀ G, GSAfter x.g.s.w.mem K.toGSBook (.go t ch) r G → ∃ D Z' e, Shade x P (.glob (.go t ch)) (r.map .glob) { x with g := g' } { P with direct := D } e ∧
                GPTie { x with g := g' } { K with toGSBook := G } { P with direct := D } Z' := by
          intro pc zs e1 e2 e3 e4 e5
          refine ⟨none, _, e1, .still (by show s'.w.mem = _; rw [hw]), ⟨_, .inside⟩, ?_⟩
          intro G ha; cases ha
          obtain ⟨R, S, f1, f2, f3, f4, f5, f6⟩ := h.fam.focus t
          rw [hx] at f1
          refine ⟨_, zs ++ Z, _, .glob .go .go hps hA, h.upd t (G := K.toGSBook) hm ⟨rfl, rfl⟩ rfl h.sz ?_ ?_ ?_ ?_
            (fun u hu => ⟨rfl, rfl, GSS.setPc_ne _ _ hu, put_ne _ _ hu, rfl⟩) ?_ (fun _ => hpb)⟩
          · intro z hz
            rcases List.mem_append.mp hz with hz | hz
            · exact e3 z hz
            · exact h.short z hz
          · rw [List.map_append, e2]; exact h.own.append_left _
          · show GFam s'.w.debug _ _ _ _ _
            rw [hw]
            refine f6 rfl (fun _ _ => rfl) (fun u hu => GSS.setPc_ne _ _ hu) ?_ f2 f3
            rw [List.map_append, e4]
            dsimp only
            rw [GSS.setPc_same]
            refine (f1.append_left _).trans ?_
            rw [List.nil_append, ← List.append_assoc, ← List.append_assoc]
            exact List.perm_append_comm.append_right _
          · intro _ _ _ _ _ _; show s'.w.mem _ = _; rw [hw]
          · dsimp only
            rw [GSS.setPc_same, put_same]
            exact ⟨_, by show GTOK _ s'.w.mem _ _ _ _ _; rw [hw]; exact e5, .none⟩
        have big : ∀ {s : Slice} {l : Layout}, gets i ob' r = [Owned.of s l] → Short (granted s.addr l) (Owned.of s l) := by
          intro s l hg
          have := (C26_memory hR' (b := Owned.of s l) (.inl (by dsimp only; rw [hg]; exact List.mem_cons_self))).2.1
          exact ⟨rfl, rfl, rfl, this, Nat.le_refl _⟩
        have run : ∀ {pc}, afterBlink c r = pc → ggo x.g t ch = .ok (some (none, ({ x.g with s := s' } : GSS).setPc t pc)) := by
          rintro pc rfl
          unfold ggo; rw [hpc]; dsimp only; rw [ebind_ok' he]
          dsimp only
          unfold afterBlink
          generalize c = c', r = r'
          cases c' <;> cases r' <;> rfl
        rw [hbz] at ht
        rw [hib] at hlike
        cases ht with
        | @bAlloc l _ hv hz =>
          cases hlike
          cases hret with
          | @allocOk _ s =>
            refine fin (zs := [(granted s.addr l, Owned.of s l)]) (run rfl) rfl ?_ (by rw [hbz]; rfl) ?_
            · intro z hz; rw [List.mem_singleton] at hz; subst hz; exact big rfl
            · rw [hbz]; exact .finAlloc hm hz
          | allocErr =>
            refine fin (zs := []) (run rfl) rfl (by simp) (by rw [hbz]; rfl) ?_
            rw [hbz]; exact .finAllocErr hm
        | @bZeroed l _ hv hz =>
          cases hlike
          cases hret with
          | @allocOk _ s =>
            refine fin (zs := [(Owned.of s l, Owned.of s l)]) (run rfl) rfl ?_ (by rw [hbz]; rfl) ?_
            · intro z hz; rw [List.mem_singleton] at hz; subst hz; exact .refl (big (l := l) (s := s) rfl).2.2.2.1
            · rw [hbz]; exact .zero hm hz (Nat.zero_le _) (by intro i hi; omega)
          | allocErr =>
            refine fin (zs := []) (run rfl) rfl (by simp) (by rw [hbz]; rfl) ?_
            rw [hbz]; exact .finZeroedErr hm
        | bDealloc _ hi =>
          cases hlike
          cases hret with
          | dealloc =>
            refine fin (zs := []) (run rfl) rfl (by simp) (by rw [hbz]; rfl) ?_
            rw [hbz]; exact .finDealloc hm
        | @bRealloc b p l n _ hi hb hz hs =>
          cases hlike with
          | @block _ _ b' hsh =>
            cases hret with
            | @resizeOk _ _ _ _ s hc =>
              refine fin (zs := [(granted s.addr ⟨n, l.align⟩, Owned.of s ⟨n, l.align⟩)]) (run rfl) rfl ?_ (by rw [hbz]; rfl) ?_
              · intro z hz; rw [List.mem_singleton] at hz; subst hz; exact big rfl
              · rw [hbz]; exact .finRealloc hm hz fun i hi => by rw [← hs]; exact hc i (by dsimp only; omega)
            | resizeErr hc =>
              refine fin (zs := [(b, b')]) (run rfl) rfl ?_ (by rw [hbz, hm]; rfl) ?_
              · intro z hz; rw [List.mem_singleton] at hz; subst hz; exact hsh
              · rw [hbz]; exact .finReallocErr (fun _ => hb) (by rw [hm]; simp) fun y hy => by rw [← hs]; exact hc y (hsh.has hy)

/-! ### Zeroing -/

theorem GPTie.goZero {p0 x K P Z} (hR : PReach p0 x.ps P) (h : GPTie x K P Z) {t : Nat} {ch : Choice} {l : Layout} {s : Slice} {k : Nat}
    (hpc : x.g.pcs t = .zero l s k) : GPGlob x K P (.go t ch) := by
  obtain ⟨ibz, ht, hlike⟩ := h.thr t
  rw [hpc] at ht
  obtain ⟨hm, hz, hk, hc, hbz, rfl⟩ : K.blinkMode = true ∧ 0 < l.size ∧ k ≤ s.len ∧ (∀ i, i < k → x.g.s.w.mem (s.addr + i) = .raw 0) ∧
      K.busy t = some (.allocZeroed l, none) ∧ ibz = none := by
    revert ht
    generalize K.busy t = bz
    intro ht
    cases ht
    exact ⟨‹_›, ‹_›, ‹_›, ‹_›, rfl, rfl⟩
  have hib : P.direct.busy t = none := by
    revert hlike
    generalize P.direct.busy t = z
    intro hlike
    cases hlike; rfl
  have hpb : K.pbusy t = none := h.one t (by rw [hbz]; simp)
  obtain ⟨R, S, f1, f2, f3, f4, f5, f6⟩ := h.fam.focus t
  rw [hpc, hbz] at f1
  change (Z.map Prod.fst).Perm (K.blink ++ (Owned.of s l :: R)) at f1
  have ho : Owned.of s l ∈ Z.map Prod.fst := f1.mem_iff.mpr (List.mem_append_right _ List.mem_cons_self)
  have hap := h.apart hR (ids := []) .nil
  rw [List.flatMap_nil, List.append_nil] at hap
  have hap := (f1.pairwise_iff fun h => Owned.Apart.symm h).mp hap
  rw [List.pairwise_append, List.pairwise_cons] at hap
  obtain ⟨z, hzZ, hz1⟩ := List.mem_map.mp ho
  have hsh := h.short z hzZ
  rw [hz1] at hsh
  have hzo : z.2 ∈ P.direct.owned := h.own.mem_iff.mpr (List.mem_map_of_mem hzZ)
  unfold GPGlob
  have hgo : gsstep x.g (.go t ch) = ggo x.g t ch := rfl
  rw [hgo]
  by_cases hlt : k < s.len
  · have hx : (Owned.of s l).Has (s.addr + k) := ⟨by simp only [Owned.of]; omega, by simp only [Owned.of]; omega⟩
    have hacc : x.g.s.w.accessible (s.addr + k) 1 = true := by
      obtain ⟨KS, cs, pend, hI⟩ := hR.inv
      obtain ⟨_, _, hS⟩ := hI.reach.inv
      exact hS.arena.acc_used (hS.fam.owned.byte (hI.tiles.memD hzo) (hsh.has hx))
    have hl : PLegal P (.shared (.write (s.addr + k) (.raw 0))) := .write (.write hzo (hsh.has hx))
    have hps : pstep x.ps (.shared (.write (s.addr + k) (.raw 0))) = .ok (some (none,
        { x.ps with s := { x.g.s with w := { x.g.s.w with mem := setBytes x.g.s.w.mem (s.addr + k) 1 (fun _ => .raw 0) } } })) := rfl
    have hother : ∀ {y}, y ≠ s.addr + k → setBytes x.g.s.w.mem (s.addr + k) 1 (fun _ => .raw 0) y = x.g.s.w.mem y :=
      fun hy => setBytes_out (by omega)
    refine ⟨none,
      ({ x.g with s := { x.g.s with w := { x.g.s.w with mem := setBytes x.g.s.w.mem (s.addr + k) 1 (fun _ => .raw 0) } } } : GSS).setPc t
        (.zero l s (k + 1)), ?_, ?_, ⟨_, .inside⟩, ?_⟩
    · unfold ggo; rw [hpc]; dsimp only; rw [if_pos hlt, if_pos hacc]; rfl
    · refine h.resOf hR hl hps Act.write_noReset ?_
      intro y v he
      injection he with he _
      subst he
      exact .inr ⟨_, ho, hx, R, f1⟩
    · intro G ha
      cases ha
      refine ⟨P.direct, Z, _, .glob .zero hl hps (.direct .write (.inl rfl)), h.upd t (G := K.toGSBook) (D := P.direct) hm ⟨rfl, rfl⟩ rfl h.sz h.short h.own
        ?_ ?_ (fun u hu => ⟨rfl, rfl, GSS.setPc_ne _ _ hu, rfl, rfl⟩) ?_ (fun _ => hpb)⟩
      · refine f6 rfl (fun _ _ => rfl) (fun u hu => GSS.setPc_ne _ _ hu) ?_ f2 f3
        dsimp only
        rw [GSS.setPc_same]; exact f1
      · intro u hu b hb y hy
        refine hother fun he => ?_
        rw [he] at hy
        exact hap.2.1.1 b (f4 u hu b hb) _ ⟨hx, hy⟩
      · dsimp only
        rw [GSS.setPc_same, hbz, hib]
        refine ⟨_, .zero hm hz hlt fun i hi => ?_, .none⟩
        by_cases he : i = k
        · subst he
          exact setBytes_in (m := x.g.s.w.mem) (f := fun _ => .raw 0) (a := s.addr + i) (n := 1) (i := 0) Nat.one_pos
        · exact (hother (by omega)).trans (hc i (by omega))
  · have hlen : l.size ≤ s.len := hsh.2.2.2.2
    refine ⟨none, x.g.setPc t (.fin (.allocZeroed l) (.block s)), ?_, .still rfl, ⟨_, .inside⟩, ?_⟩
    · unfold ggo; rw [hpc]; dsimp only; rw [if_neg hlt]; rfl
    · intro G ha
      cases ha
      refine ⟨P.direct, (granted s.addr l, z.2) :: Z.erase z, none, .silent rfl, h.upd t (G := K.toGSBook) (D := P.direct) hm ⟨rfl, rfl⟩ rfl h.sz ?_ ?_
        ?_ (fun _ _ _ _ _ _ => rfl) (fun u hu => ⟨rfl, rfl, GSS.setPc_ne _ _ hu, rfl, rfl⟩) ?_ (fun _ => hpb)⟩
      · intro q hq
        rcases List.mem_cons.mp hq with rfl | hq
        · obtain ⟨s1, s2, s3, s4, _⟩ := hsh
          exact ⟨s1, s2, s3, Nat.le_trans hlen s4, Nat.le_refl _⟩
        · exact h.short q (List.mem_of_mem_erase hq)
      · exact h.own.trans ((List.perm_cons_erase hzZ).map Prod.snd)
      · refine f6 rfl (fun _ _ => rfl) (fun u hu => GSS.setPc_ne _ _ hu) ?_ f2 f3
        dsimp only
        rw [GSS.setPc_same, hbz]
        have h1 := ((List.perm_cons_erase hzZ).map Prod.fst).symm.trans (f1.trans List.perm_middle)
        rw [List.map_cons, hz1] at h1
        exact (h1.cons_inv.cons _).trans List.perm_middle.symm
      · dsimp only
        rw [GSS.setPc_same, hbz, hib]
        exact ⟨_, .finZeroed hm hz fun i hi => hc i (by omega), .none⟩

/-! ### Returning -/

theorem GPTie.finish {x K P Z} (h : GPTie x K P Z) {t : Nat} {bs : List Owned} {cnt : Nat} (hm : K.blinkMode = true)
    (hib : P.direct.busy t = none) (hX : xOf K.blinkMode (K.busy t) (x.g.pcs t) = bs) (hsz : ∀ b ∈ bs, 0 < b.size ∧ b.len = b.size)
    (hcnt : if x.g.s.w.debug = true then
        ∀ S, x.g.allocations = (K.blink.length + ((lent (K.busy t)).length + S)) % USIZE → cnt = (bs.length + K.blink.length + S) % USIZE
      else cnt = x.g.allocations) :
    GPTie { x with g := ({ x.g with allocations := cnt } : GSS).setPc t .idle }
      { K with toGSBook := { K.toGSBook with toGBook := K.addL bs, busy := put K.busy t none } } P Z := by
  obtain ⟨R, S, f1, f2, f3, f4, f5, f6⟩ := h.fam.focus t
  rw [hX] at f1
  have hadd : K.addL bs = { K.toGBook with blink := bs ++ K.blink } := by unfold GBook.addL; rw [if_pos hm]
  refine h.upd (x' := { x with g := ({ x.g with allocations := cnt } : GSS).setPc t .idle }) (D := P.direct) t hm ⟨rfl, by rw [hadd]⟩ (by rw [hadd]) ?_ h.short h.own ?_
    (fun _ _ _ _ _ _ => rfl) (fun u hu => ⟨put_ne _ _ hu, rfl, GSS.setPc_ne _ _ hu, rfl, rfl⟩) ?_ (fun hb => absurd (put_same _ _ _) hb)
  · intro b hb
    rw [hadd] at hb
    rcases List.mem_append.mp hb with hb | hb
    · exact hsz b hb
    · exact h.sz b hb
  · refine f6 (by rw [hadd]) (fun u hu => put_ne _ _ hu) (fun u hu => GSS.setPc_ne _ _ hu) ?_ ?_ ?_
    · dsimp only
      rw [GSS.setPc_same, put_same, hadd]
      refine f1.trans ?_
      rw [← List.append_assoc]
      exact List.perm_append_comm.append_right _
    · rw [hadd]; rw [hm] at f2 ⊢; exact f2
    · dsimp only
      rw [put_same, hadd]
      show cnt = if x.g.s.w.debug = true then _ else 0
      rw [hm] at f3 ⊢
      by_cases hd : x.g.s.w.debug = true
      · rw [if_pos hd] at hcnt f3 ⊢
        rw [hcnt _ f3]
        simp [lent]
      · rw [if_neg hd] at hcnt f3 ⊢
        exact hcnt.trans f3
  · dsimp only
    rw [GSS.setPc_same, put_same, hib]
    exact ⟨_, .idle, .none⟩

theorem GPTie.goFin {p0 x K P Z} (hR : PReach p0 x.ps P) (h : GPTie x K P Z) {t : Nat} {ch : Choice} {c : GCall} {r : Resp}
    (hpc : x.g.pcs t = .fin c r) : GPGlob x K P (.go t ch) := by
  obtain ⟨ibz, ht, hlike⟩ := h.thr t
  rw [hpc] at ht
  obtain ⟨bz, hbz⟩ : ∃ bz, K.busy t = bz := ⟨_, rfl⟩
  rw [hbz] at ht
  have hm : K.blinkMode = true := by
    cases hmd : K.blinkMode with
    | true => rfl
    | false =>
      have := h.off hmd t
      rw [hbz] at this
      subst this
      cases ht
  have hX : xOf K.blinkMode (K.busy t) (x.g.pcs t) = xOf K.blinkMode bz (.fin c r) := by rw [hbz, hpc]
  have hpos : ∀ b ∈ xOf K.blinkMode bz (.fin c r), b.addr ≠ 0 := by
    intro b hb
    obtain ⟨R, S, f1, _⟩ := h.fam.focus t
    rw [hX] at f1
    obtain ⟨b', hsh, hb'⟩ := h.ofZ (f1.mem_iff.mpr (List.mem_append_right _ (List.mem_append_left _ hb)))
    have := (C26_memory hR (.inl hb')).2.2.1
    have := hsh.1
    omega
  have hen : x.g.enabled = true := h.mode.trans hm
  have fin : ∀ ob, bz = some (c, ob) → ibz = none → Returned x.g.s.w.mem (K.snap t) c ob (c.resp r) →
      xOf K.blinkMode bz (.fin c r) = ggets c ob (c.resp r) →
      (∀ b ∈ ggets c ob (c.resp r), 0 < b.size ∧ b.len = b.size) →
      (x.g.s.w.debug = true → ∀ S, x.g.allocations = (K.blink.length + ((lent bz).length + S)) % USIZE →
        x.g.counted c r = ((ggets c ob (c.resp r)).length + K.blink.length + S) % USIZE) → GPGlob x K P (.go t ch) := by
    rintro ob rfl rfl e1 e2 e4 e5
    have hib : P.direct.busy t = none := by
      revert hlike
      generalize P.direct.busy t = z
      intro hlike
      cases hlike; rfl
    refine ⟨some (c.resp r), ({ x.g with allocations := x.g.counted c r } : GSS).setPc t .idle, ?_, ⟨fun _ _ _ _ _ => rfl, ?_⟩, ⟨_, .ret hbz⟩, ?_⟩
    · show ggo x.g t ch = _; unfold ggo; rw [hpc]; rfl
    · rintro _ _ _ _ _ ⟨⟩ ⟨⟩ hb
      rw [hbz] at hb; cases hb
      exact e1
    · intro G ha
      cases ha with
      | ret hb =>
        rw [hbz] at hb; cases hb
        refine ⟨P.direct, Z, none, .silent rfl, h.finish hm hib (by rw [hX]; exact e2) e4 ?_⟩
        by_cases hd : x.g.s.w.debug = true
        · rw [if_pos hd, hbz]; exact e5 hd
        · rw [if_neg hd]
          unfold GSS.counted
          rw [if_neg (fun h => hd h.1)]
  cases ht with
  | @finAlloc l s hm hz =>
    have : s.addr ≠ 0 := hpos _ List.mem_cons_self
    have eg : ggets (.alloc l) none (GCall.resp (.alloc l) (.block s)) = [granted s.addr l] := by
      simp only [ggets, GCall.resp, GResp.ofResp]; rw [if_neg this]
    refine fin none rfl rfl trivial ?_ ?_ ?_
    · rw [eg]; rfl
    · rw [eg]; intro b hb; rw [List.mem_singleton] at hb; subst hb; exact ⟨hz, rfl⟩
    · intro hd S hS
      unfold GSS.counted
      rw [eg, if_pos ⟨hd, hen⟩]
      simp only [lent, List.length_nil, List.length_cons] at *
      omega
  | finAllocErr hm =>
    refine fin none rfl rfl trivial rfl (by intro b hb; cases hb) ?_
    intro hd S hS
    unfold GSS.counted
    rw [if_pos ⟨hd, hen⟩]
    simp only [lent, List.length_nil, ggets, GCall.resp, GResp.ofResp, if_true] at *
    omega
  | @finZeroed l s hm hz hc =>
    have : s.addr ≠ 0 := hpos _ List.mem_cons_self
    have eg : ggets (.allocZeroed l) none (GCall.resp (.allocZeroed l) (.block s)) = [granted s.addr l] := by
      simp only [ggets, GCall.resp, GResp.ofResp]; rw [if_neg this]
    refine fin none rfl rfl (fun _ => hc) ?_ ?_ ?_
    · rw [eg]; rfl
    · rw [eg]; intro b hb; rw [List.mem_singleton] at hb; subst hb; exact ⟨hz, rfl⟩
    · intro hd S hS
      unfold GSS.counted
      rw [eg, if_pos ⟨hd, hen⟩]
      simp only [lent, List.length_nil, List.length_cons] at *
      omega
  | finZeroedErr hm =>
    refine fin none rfl rfl (fun hq => absurd rfl hq) rfl (by intro b hb; cases hb) ?_
    intro hd S hS
    unfold GSS.counted
    rw [if_pos ⟨hd, hen⟩]
    simp only [lent, List.length_nil, ggets, GCall.resp, GResp.ofResp, if_true] at *
    omega
  | finDealloc hm =>
    refine fin _ rfl rfl trivial rfl (by intro b hb; cases hb) ?_
    intro hd S hS
    unfold GSS.counted
    rw [if_pos ⟨hd, hen⟩]
    simp only [lent, List.length_nil, List.length_cons, ggets, GCall.resp] at *
    omega
  | @finRealloc b p l n s hm hz hc =>
    have : s.addr ≠ 0 := hpos _ List.mem_cons_self
    have eg : ggets (.realloc p l n) (some b) (GCall.resp (.realloc p l n) (.block s)) = [granted s.addr ⟨n, l.align⟩] := by
      simp only [ggets, GCall.resp, GResp.ofResp]; rw [if_neg this]
    refine fin _ rfl rfl ⟨fun _ => hc, fun h => absurd h this⟩ ?_ ?_ ?_
    · rw [eg]; rfl
    · rw [eg]; intro b hb; rw [List.mem_singleton] at hb; subst hb; exact ⟨hz, rfl⟩
    · intro hd S hS
      unfold GSS.counted
      rw [eg, if_pos ⟨hd, hen⟩]
      simp only [lent, List.length_nil, List.length_cons] at *
      omega
  | @finReallocErr b p l n hb _ hc =>
    have eg : ggets (.realloc p l n) (some b) (GCall.resp (.realloc p l n) .err) = [b] := by
      simp only [ggets, GCall.resp, GResp.ofResp]; rw [if_pos trivial]
    refine fin _ rfl rfl ⟨fun h => absurd rfl h, fun _ => hc⟩ ?_ ?_ ?_
    · rw [eg, hm]; rfl
    · rw [eg]; intro b' hb'; rw [List.mem_singleton] at hb'; subst hb'; exact hb hm
    · intro hd S hS
      unfold GSS.counted
      rw [eg, if_pos ⟨hd, hen⟩]
      simp only [lent, List.length_nil, List.length_cons] at *
      omega

/-! ### Stores -/

theorem GPTie.writeStep {p0 x K P Z} (hR : PReach p0 x.ps P) (h : GPTie x K P Z) {b : Owned} {y : Nat} {v : Byte}
    (hb : b ∈ K.blink ∨ ∃ i, b ∈ K.led i) (hy : b.Has y) : GPGlob x K P (.write y v) := by
  have hother : ∀ {u}, u ≠ y → setBytes x.g.s.w.mem y 1 (fun _ => v) u = x.g.s.w.mem u := fun hy => setBytes_out (by omega)
  have hl : PLegal P (.shared (.write y v)) := by
    rcases hb with hb | ⟨i, hb⟩
    · obtain ⟨b', _, hsh, hb'⟩ := h.inZ hb
      exact .write (.write hb' (hsh.has hy))
    · exact .pwrite (by rw [h.led]; exact hb) hy
  -- the blocks calls have are not `b`
  have hthr : ∀ u, ∀ c ∈ xOf K.blinkMode (K.busy u) (x.g.pcs u), ¬ c.Has y := by
    intro u c hc hcy
    obtain ⟨R, S, f1, _⟩ := h.fam.focus u
    rcases hb with hb | ⟨i, hb⟩
    · have hap := h.apart hR (ids := []) .nil
      rw [List.flatMap_nil, List.append_nil] at hap
      have hap := (f1.pairwise_iff fun h => Owned.Apart.symm h).mp hap
      rw [List.pairwise_append] at hap
      exact hap.2.2 b hb c (List.mem_append_left _ hc) y ⟨hy, hcy⟩
    · have hap := h.apart hR (ids := [i]) (by simp)
      rw [List.pairwise_append] at hap
      refine hap.2.2 c (f1.mem_iff.mpr (List.mem_append_right _ (List.mem_append_left _ hc))) b ?_ y ⟨hcy, hy⟩
      rw [List.flatMap_cons, List.flatMap_nil, List.append_nil]
      exact List.mem_append_right _ hb
  refine ⟨some .unit, { x.g with s := { x.g.s with w := { x.g.s.w with mem := setBytes x.g.s.w.mem y 1 (fun _ => v) } } }, rfl,
    ⟨?_, by rintro _ _ _ _ _ ⟨⟩⟩, ⟨_, .write⟩, ?_⟩
  · intro c u hu hw _
    exact hother fun he => hw v (by rw [he])
  · intro G ha
    cases ha
    refine ⟨P.direct, Z, _, .glob .write hl (r' := none) rfl (.direct .write (.inl rfl)), ?_⟩
    refine ⟨h.live, h.led, h.pbusy, h.mode, h.nod, h.sz, h.off, h.short, h.own, h.fam, fun u => ?_, h.one⟩
    obtain ⟨ibz, g1, g2⟩ := h.thr u
    exact ⟨ibz, g1.frame (fun c hc z hz => hother fun he => hthr u c hc (he ▸ hz))
      (fun hf c hc => by rw [h.off hf u] at hc; cases hc), g2⟩

/-! ### Modes and resets -/

theorem GPTie.quiet {x K P Z} (h : GPTie x K P Z) (hq : ∀ t, K.busy t = none) :
    (∀ t, x.g.pcs t = .idle) ∧ (∀ t, P.direct.busy t = none) ∧ (Z.map Prod.fst).Perm K.blink ∧
    x.g.allocations = if x.g.s.w.debug then K.blink.length % USIZE else 0 := by
  have hp : ∀ t, x.g.pcs t = .idle := fun t => (h.busy_none (hq t)).1
  obtain ⟨h1, _, h3⟩ := h.fam.idle hq hp
  exact ⟨hp, fun t => (h.busy_none (hq t)).2, h1, h3⟩

/-- With nobody inside, put together anew. -/
theorem GPTie.requiet {x K P Z} (h : GPTie x K P Z) (hq : ∀ t, K.busy t = none) {x' : GPS} {G : GSBook} {D : Book} {Z'}
    (hm : x'.g.enabled = G.blinkMode) (hb : G.busy = K.busy) (hD : D.busy = P.direct.busy)
    (hp : x'.g.pcs = x.g.pcs) (ho : D.owned.Perm (Z'.map Prod.snd)) (hf : (Z'.map Prod.fst).Perm G.blink) (hd : G.direct = K.direct)
    (hsz : ∀ b ∈ G.blink, b ∈ K.blink) (hZ : ∀ z ∈ Z', z ∈ Z)
    (hc : x'.g.allocations = if x'.g.s.w.debug then G.blink.length % USIZE else 0) :
    GPTie x' { K with toGSBook := G } { P with direct := D } Z' := by
  obtain ⟨q1, q2, q3, q4⟩ := h.quiet hq
  refine ⟨h.live, h.led, h.pbusy, hm, hd.trans h.nod, fun b hb => h.sz b (hsz b hb), fun _ => by dsimp only; rw [hb]; exact hq,
    fun z hz => h.short z (hZ z hz), ho, .of_idle (by dsimp only; rw [hb]; exact hq) (by rw [hp]; exact q1) hf (by dsimp only; rw [hd, h.nod]) hc, fun t => ?_, fun t ht => ?_⟩
  · dsimp only
    rw [hb, hq, hp, q1, hD, q2]
    exact ⟨_, .idle, .none⟩
  · dsimp only at ht
    rw [hb] at ht
    exact absurd (hq t) ht

/-- `reset`: it panics if the counter is not 0 in a debug build, otherwise the `SyncBlinkAlloc` is reset. -/
theorem GPTie.resetCases {p0 x K P Z} (hR : PReach p0 x.ps P) (h : GPTie x K P Z) (hq : ∀ t, K.busy t = none) (hn : ∀ i, K.live i = false) :
    ((x.g.s.w.debug = true ∧ x.g.allocations ≠ 0) ∧ x.g.reset = .ok (some (some .panicked, x.g))) ∨
    (¬ (x.g.s.w.debug = true ∧ x.g.allocations ≠ 0) ∧ ∃ s', x.g.reset = .ok (some (some .unit, { x.g with s := s' })) ∧
      sstep x.g.s .resetUnchecked = .ok (some (none, s')) ∧ s'.w.debug = x.g.s.w.debug ∧
      PLegal P (.shared .resetUnchecked) ∧ pstep x.ps (.shared .resetUnchecked) = .ok (some (none, { x.ps with s := s' }))) := by
  obtain ⟨q1, q2, q3, q4⟩ := h.quiet hq
  unfold GSS.reset
  by_cases hc : x.g.s.w.debug = true ∧ x.g.allocations ≠ 0
  · exact .inl ⟨hc, by rw [if_pos hc]; rfl⟩
  · refine .inr ⟨hc, ?_⟩
    rw [if_neg hc]
    have hl : PLegal P (.shared .resetUnchecked) := .sreset (.inr (.inl rfl)) (.resetUnchecked q2) (by rw [h.live]; exact hn)
    obtain ⟨KS, cs, pend, hI⟩ := hR.inv
    obtain ⟨cs', B, hS'⟩ := hI.reach.inv
    have hS : SInv p0.s x.g.s cs' KS B := hS'
    have hkb : ∀ t, KS.busy t = none := by
      intro t
      have hx := hI.px t
      rw [show P.live t = false by rw [h.live]; exact hn t] at hx
      exact hx.dead.2.2.2.1.symm.trans (q2 t)
    have hs : sstep x.g.s .resetUnchecked =
        .ok (some (none, { x.g.s with w := resetWorld x.g.s.w cs', root := rootOf (resetChunks cs'), seen := [] })) := by
      simp only [sstep, resetStep]
      rw [if_pos (hS.lock_free hkb), ebind_ok' (by rw [show x.g.s.root = _ from hS.root]; exact arenaReset_keep hS.arena)]; rfl
    have hps : pstep x.ps (.shared .resetUnchecked) = .ok (some (none, { x.ps with s :=
        { x.g.s with w := resetWorld x.g.s.w cs', root := rootOf (resetChunks cs'), seen := [] } })) := by
      simp only [pstep]; rw [ebind_ok (show sstep x.ps.s _ = _ from hs)]; rfl
    exact ⟨_, by rw [ebind_ok' hs]; rfl, hs, (resetWorld_consts _ _).1, hl, hps⟩

theorem GPTie.blocks_dead {p0 x K P Z} (hR : PReach p0 x.ps P) (h : GPTie x K P Z) {i : Nat} (hn : K.live i = false) : K.blocks i = [] := by
  obtain ⟨KS, cs, pend, hI⟩ := hR.inv
  have hx := hI.px i
  rw [show P.live i = false by rw [h.live]; exact hn] at hx
  obtain ⟨_, e1, e2, _⟩ := hx.dead
  rw [h.blocks]
  unfold PBook.blocks
  rw [e1, e2]; rfl

theorem GPTie.resetStep {p0 x K P Z} (hR : PReach p0 x.ps P) (h : GPTie x K P Z) (hq : ∀ t, K.busy t = none) (hn : ∀ i, K.live i = false) :
    GPGlob x K P .reset := by
  unfold GPGlob gsstep
  dsimp only
  rcases h.resetCases hR hq hn with ⟨_, he⟩ | ⟨hc, s', he, hs, hd, hl, hps⟩
  · refine ⟨_, _, he, ⟨fun _ _ _ _ _ => rfl, by rintro _ _ _ _ _ ⟨⟩⟩, ⟨_, .resetPanic⟩, ?_⟩
    intro G ha; cases ha; exact ⟨P.direct, Z, none, .silent rfl, h⟩
  · refine ⟨_, _, he, ⟨?_, by rintro _ _ _ _ _ ⟨⟩⟩, ⟨_, .reset⟩, ?_⟩
    · rintro b y _ _ (⟨_, h1⟩ | ⟨i, h1, _⟩)
      · cases h1 _ rfl
      · rw [h.blocks_dead hR (hn i)] at h1; cases h1
    · intro G ha; cases ha
      refine ⟨{ P.direct with owned := [] }, [], _, .glob .reset hl hps (.direct .resetUnchecked (.inl rfl)),
        h.requiet hq h.mode rfl rfl rfl (.refl _) (.refl _) rfl (by simp) (by simp) ?_⟩
      show x.g.allocations = if s'.w.debug = true then 0 else 0
      obtain ⟨_, _, _, q4⟩ := h.quiet hq
      by_cases hdb : x.g.s.w.debug = true
      · have : x.g.allocations = 0 := Decidable.byContradiction fun hne => hc ⟨hdb, hne⟩
        rw [this]; simp
      · rw [if_neg hdb] at q4; rw [q4]; simp

theorem GPTie.directStep {p0 x K P Z} (hR : PReach p0 x.ps P) (h : GPTie x K P Z) (hq : ∀ t, K.busy t = none) (hn : ∀ i, K.live i = false) :
    GPGlob x K P .directMode := by
  unfold GPGlob gsstep
  dsimp only
  rcases h.resetCases hR hq hn with ⟨_, he⟩ | ⟨hc, s', he, hs, hd, hl, hps⟩
  · rw [ebind_ok' he]
    refine ⟨_, _, rfl, ⟨fun _ _ _ _ _ => rfl, by rintro _ _ _ _ _ ⟨⟩⟩, ⟨_, .directPanic⟩, ?_⟩
    intro G ha; cases ha; exact ⟨P.direct, Z, none, .silent rfl, h⟩
  · rw [ebind_ok' he]
    refine ⟨_, _, rfl, ⟨?_, by rintro _ _ _ _ _ ⟨⟩⟩, ⟨_, .directMode⟩, ?_⟩
    · rintro b y _ _ (⟨_, h1⟩ | ⟨i, h1, _⟩)
      · cases h1 _ rfl
      · rw [h.blocks_dead hR (hn i)] at h1; cases h1
    · intro G ha; cases ha
      refine ⟨{ P.direct with owned := [] }, [], _, .glob .directMode hl hps (.direct .resetUnchecked (.inl rfl)),
        h.requiet hq rfl rfl rfl rfl (.refl _) (.refl _) rfl (by simp) (by simp) ?_⟩
      show x.g.allocations = if s'.w.debug = true then 0 else 0
      obtain ⟨_, _, _, q4⟩ := h.quiet hq
      by_cases hdb : x.g.s.w.debug = true
      · have : x.g.allocations = 0 := Decidable.byContradiction fun hne => hc ⟨hdb, hne⟩
        rw [this]; simp
      · rw [if_neg hdb] at q4; rw [q4]; simp

theorem GPTie.blinkStep {x K P Z} (h : GPTie x K P Z) (hq : ∀ t, K.busy t = none) : GPGlob x K P .blinkMode := by
  obtain ⟨q1, q2, q3, q4⟩ := h.quiet hq
  refine ⟨_, _, rfl, ⟨fun _ _ _ _ _ => rfl, by rintro _ _ _ _ _ ⟨⟩⟩, ⟨_, .blinkMode⟩, ?_⟩
  intro G ha
  cases ha
  exact ⟨P.direct, Z, none, .silent rfl, h.requiet hq rfl rfl rfl rfl h.own q3 rfl (fun _ h => h) (fun _ h => h) q4⟩

end Blink
