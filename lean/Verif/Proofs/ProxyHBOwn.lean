import Verif.Proofs.ProxyHBFrame
/-
  Calls of proxies keep the invariant behind the absence of data races.
-/
namespace Blink

/-! ### Books -/

/-- What a call of proxy `i` does to the book. -/
structure OwnBook (K : PBook) (i : Nat) (r : Option Resp) (K' : PBook) : Prop where
  direct : K'.direct = K.direct
  others : ∀ j, j ≠ i → K'.led j = K.led j ∧ K'.pbusy j = K.pbusy j ∧ K'.live j = K.live j
  ready : K.Ready i
  live : K'.live i = true → K.live i = true
  waits : r = none → K'.pbusy i ≠ none

theorem OwnBook.of {m : Nat → Byte} {K K' : PBook} {a : PAct} {i : Nat} {r : Option Resp} (hl : PLegal K a) (hi : a.proxy = some i)
    (ha : PAfter m K a r K') : OwnBook K i r K' := by
  have enter : ∀ {left c ob r}, K.Ready i → OwnBook K i r (K.enter i left c ob r) := by
    intro left c ob r hr
    cases r with
    | none => exact ⟨rfl, fun j hj => ⟨put_ne _ _ hj, put_ne _ _ hj, rfl⟩, hr, id, fun _ => by simp [PBook.enter, put_same]⟩
    | some v => exact ⟨rfl, fun j hj => ⟨put_ne _ _ hj, rfl, rfl⟩, hr, id, fun h => by cases h⟩
  cases hl with
  | call => cases hi
  | go => cases hi
  | write => cases hi
  | pwrite => cases hi
  | sreset => cases hi
  | spawn => cases hi
  | updateMax => cases hi
  | sync => cases hi
  | allocate h _ => injection hi with hi; subst hi; cases ha; exact enter h
  | resize h _ _ _ => injection hi with hi; subst hi; cases ha; exact enter h
  | resetUnchecked h => injection hi with hi; subst hi; cases ha; exact enter h
  | deallocate h _ _ =>
    injection hi with hi; subst hi; cases ha
    exact ⟨rfl, fun j hj => ⟨put_ne _ _ hj, rfl, rfl⟩, h, id, fun h => by cases h⟩
  | reset h =>
    injection hi with hi; subst hi; cases ha
    exact ⟨rfl, fun j hj => ⟨put_ne _ _ hj, rfl, rfl⟩, h, id, fun h => by cases h⟩
  | drop h =>
    injection hi with hi; subst hi; cases ha
    exact ⟨rfl, fun j hj => ⟨put_ne _ _ hj, rfl, put_ne _ _ hj⟩, h, fun _ => h.1, fun h => by cases h⟩

theorem mem_erase_self {L : List Owned} (h : L.Pairwise Owned.Apart) {b : Owned} (hb : b ∈ L) {x : Nat} (hx : b.Has x) : b ∉ L.erase b := by
  intro hm
  have := ((List.perm_cons_erase hb).pairwise_iff fun h => Owned.Apart.symm h).mp h
  exact (List.pairwise_cons.mp this).1 b hm x ⟨hx, hx⟩

theorem PInv.ledApart {p0 ps K KS cs pend} (h : PInv p0 ps K KS cs pend) (i : Nat) : (K.led i).Pairwise Owned.Apart :=
  (List.pairwise_append.mp (h.px i).led.apart).2.1

theorem PInv.ledSame {p0 ps K KS cs pend} (h : PInv p0 ps K KS cs pend) {i : Nat} {b b' : Owned} (hb : b ∈ K.led i) (hb' : b' ∈ K.led i)
    {x : Nat} (hx : b.Has x) (hx' : b'.Has x) : b = b' :=
  h.same_block (List.mem_append_right _ hb) (List.mem_append_right _ hb') hx hx'

/-- A chunk is given back only when no block of the proxy is left. -/
theorem PInv.lent {p0 ps K KS cs pend} (h : PInv p0 ps K KS cs pend) {i : Nat} {c b} (hb : KS.busy i = some (c, some b))
    (hd : K.direct.busy i = none) : K.led i = [] ∧ K.live i = true := by
  have hx := h.px i
  rw [hb, hd] at hx
  generalize ps.px i = z0 at hx
  generalize K.live i = z1 at *
  generalize K.led i = z2 at *
  generalize K.pbusy i = z3 at hx
  generalize pend i = z6 at hx
  generalize cs i = z7 at hx
  cases hx with
  | chain => exact ⟨rfl, rfl⟩

section
variable {p0 ps ps' : PS} {K K' : PBook} {KS KS' : Book} {cs cs' pend pend' : Nat → List Chunk} {a : PAct} {i : Nat} {r : Option Resp}

/-- Bytes given out belong to a block held afterwards. -/
theorem own_gives (hi : a.proxy = some i) (ha : PAfter ps.s.w.mem K a r K') {x : Nat} (hg : PGives K r x a) :
    ∃ b ∈ K'.led i, b.Has x := by
  cases ha with
  | direct => cases hi
  | back => cases hi
  | spawn => cases hi
  | updateMax => cases hi
  | sync => cases hi
  | deallocate => exact hg.elim
  | reset => exact hg.elim
  | resetUnchecked => exact hg.elim
  | drop => exact hg.elim
  | allocate =>
    injection hi with hi; subst hi
    obtain ⟨v, rfl, b, hb, hx⟩ := hg
    exact ⟨b, by simp only [PBook.enter, put_same]; exact List.mem_append_left _ hb, hx⟩
  | resize hb0 hf =>
    injection hi with hi; subst hi
    obtain ⟨v, ob, rfl, ho, hof, b, hb, hx⟩ := hg
    refine ⟨b, ?_, hx⟩
    simp only [PBook.enter, put_same]
    cases v with
    | unit => cases hb
    | block s => exact List.mem_append_left _ hb
    | err =>
      have : b = ob := by simpa [pgets] using hb
      subst this
      exact (List.perm_cons_erase hb0).mem_iff.mp ho

/-- Blocks held afterwards were held before or are given out. -/
theorem own_left (hi : a.proxy = some i) (ha : PAfter ps.s.w.mem K a r K') {b : Owned} (hb : b ∈ K'.led i) {x : Nat} (hx : b.Has x)
    (hg : ¬ PGives K r x a) : b ∈ K.led i := by
  cases ha with
  | direct => cases hi
  | back => cases hi
  | spawn => cases hi
  | updateMax => cases hi
  | sync => cases hi
  | deallocate =>
    injection hi with hi; subst hi
    simp only [put_same] at hb
    exact List.mem_of_mem_erase hb
  | reset =>
    injection hi with hi; subst hi
    simp only [put_same] at hb
    cases hb
  | drop =>
    injection hi with hi; subst hi
    simp only [put_same] at hb
    cases hb
  | resetUnchecked =>
    injection hi with hi; subst hi
    cases r <;> · simp only [PBook.enter, put_same] at hb; cases hb
  | allocate =>
    injection hi with hi; subst hi
    cases r with
    | none => simpa only [PBook.enter, put_same] using hb
    | some v =>
      simp only [PBook.enter, put_same] at hb
      rcases List.mem_append.mp hb with hb | hb
      · exact absurd ⟨v, rfl, b, hb, hx⟩ hg
      · exact hb
  | resize hb0 hf =>
    injection hi with hi; subst hi
    cases r with
    | none =>
      simp only [PBook.enter, put_same] at hb
      exact List.mem_of_mem_erase hb
    | some v =>
      simp only [PBook.enter, put_same] at hb
      rcases List.mem_append.mp hb with hb | hb
      · exact absurd ⟨v, _, rfl, hb0, hf, b, hb, hx⟩ hg
      · exact List.mem_of_mem_erase hb

/-- No byte that is still held is touched. -/
theorem PInv.own_untouched (h : PInv p0 ps K KS cs pend) (hl : PLegal K a) (hi : a.proxy = some i) (ha : PAfter ps.s.w.mem K a r K')
    {x : Nat} (hT : TouchesBy (fun q => pstep q a) ps x) {b : Owned} (hb : b ∈ K.led i) (hb' : b ∈ K'.led i) (hx : b.Has x) :
    PGives K r x a := by
  apply Classical.byContradiction
  intro hg
  have hu := h.led_used (.inl hb) hx
  rcases h.own_touch hl hi hT with h1 | ⟨p, old, new, rfl, h1 | h1⟩
  · obtain ⟨c, hc, h1⟩ := h1
    exact h.used_hdr hu ⟨c, List.mem_append_left _ hc, h1⟩
  · cases ha with
    | @resize _ b0 _ _ _ _ hb0 hf =>
      obtain ⟨f1, f2, f3, f4⟩ := hf
      have he := h.ledSame hb hb0 hx (x := x) ⟨by omega, by omega⟩
      subst he
      have hne := mem_erase_self (h.ledApart i) hb hx
      cases r with
      | none => simp only [PBook.enter, put_same] at hb'; exact hne hb'
      | some v =>
        simp only [PBook.enter, put_same] at hb'
        rcases List.mem_append.mp hb' with hb' | hb'
        · exact hg ⟨v, b, rfl, hb, ⟨f1, f2, f3, f4⟩, b, hb', hx⟩
        · exact hne hb'
  · exact h.used_room hu h1

theorem PInv.own_reg (h : PInv p0 ps K KS cs pend) (hl : PLegal K a) (hi : a.proxy = some i)
    {x : Nat} (hT : TouchesBy (fun q => pstep q a) ps x) : Reg cs pend i x := by
  rcases h.own_sees hl hi hT with h1 | ⟨p, old, new, b, _, hb, _, h1 | h1⟩
  · exact h.inHdr h1
  · exact h.led_inCs (.inl hb) h1
  · exact h.inRoom h1

/-- What is known about the accesses to chunks of a proxy that stay its own. -/
theorem PHInv.own_known {h : HB} (hi : PHInv p0 ps K h KS cs pend) (hl : PLegal K a) (hp : a.proxy = some i) (hd : h.PDuty K a)
    (ha : PAfter ps.s.w.mem K a r K') (hi' : PInv p0 ps' K' KS' cs' pend') (hnd : ∀ j, a ≠ .drop j) {x e : Nat} (hR : Reg cs pend i x)
    (he : h.Acc x e) : h.view i e ∨ ∃ b ∈ K'.led i, b.Has x ∧ h.mine x e ∧ h.since x < e ∧ ¬ PGives K r x a := by
  obtain ⟨inv, core, mem⟩ := hi
  rcases mem.prox i x e hR he with h1 | ⟨b, hb, hx, h3, h4⟩
  · exact .inl h1
  have owns : h.Owns i x true → h.view i e := fun ho => mem.owns core.wf (.inr ⟨i, hb⟩) hx ho he
  have hap' := hi'.ledApart i
  cases ha with
  | direct => cases hp
  | back => cases hp
  | spawn => cases hp
  | updateMax => cases hp
  | sync => cases hp
  | drop => exact absurd rfl (hnd _)
  | reset => injection hp with hp; subst hp; exact .inl (owns (hd b hb x hx))
  | resetUnchecked => injection hp with hp; subst hp; exact .inl (owns (hd b hb x hx))
  | @deallocate _ b0 p n hb0 hf =>
    injection hp with hp; subst hp
    by_cases hf' : b.addr = p ∧ b.size ≤ n ∧ n ≤ b.len
    · exact .inl (owns (hd b hb hf' x hx))
    · refine .inr ⟨b, ?_, hx, h3, h4, fun h => h⟩
      simp only [put_same]
      exact (List.mem_erase_of_ne (by rintro rfl; exact hf' hf)).mpr hb
  | allocate =>
    injection hp with hp; subst hp
    right
    cases r with
    | none => exact ⟨b, by simpa only [PBook.enter, put_same] using hb, hx, h3, h4, fun ⟨v, hv, _⟩ => by cases hv⟩
    | some v =>
      simp only [PBook.enter, put_same] at hap' ⊢
      refine ⟨b, List.mem_append_right _ hb, hx, h3, h4, ?_⟩
      rintro ⟨v', hv, b', hb', hx'⟩
      injection hv with hv; subst hv
      exact (List.pairwise_append.mp hap').2.2 b' hb' b hb x ⟨hx', hx⟩
  | @resize i b0 p old new _ hb0 hf =>
    injection hp with hp; subst hp
    by_cases hf' : b.Fits p old
    · exact .inl (owns (hd b hb hf' x hx))
    · right
      have hm : b ∈ (K.led i).erase b0 := (List.mem_erase_of_ne (by rintro rfl; exact hf' hf)).mpr hb
      cases r with
      | none => exact ⟨b, by simpa only [PBook.enter, put_same] using hm, hx, h3, h4, fun ⟨v, _, hv, _⟩ => by cases hv⟩
      | some v =>
        simp only [PBook.enter, put_same] at hap' ⊢
        refine ⟨b, List.mem_append_right _ hm, hx, h3, h4, ?_⟩
        rintro ⟨v', ob, hv, ho, hof, b', hb', hx'⟩
        injection hv with hv; subst hv
        cases v with
        | unit => cases hb'
        | block s => exact (List.pairwise_append.mp hap').2.2 b' hb' b hm x ⟨hx', hx⟩
        | err =>
          have : b' = ob := by simpa [pgets] using hb'
          subst this
          have := inv.ledSame hb ho hx hx'
          subst this
          exact hf' hof

/-- Calls of proxies. -/
theorem PHInv.own {h h' : HB} (hi : PHInv p0 ps K h KS cs pend) (hl : PLegal K a) (hp : a.proxy = some i) (hd : h.PDuty K a)
    (hs : pstep ps a = .ok (some (r, ps'))) (ha : PAfter ps.s.w.mem K a r K')
    (hh : h.Own i (fun q => pstep q a) ps (fun x => PGives K r x a) r h') : PHOk p0 ps' K' h' := by
  obtain ⟨KS', cs', pend', inv', eff, hcs, hk⟩ := hi.inv.after hl hs ha
  have hgo : ∀ t ch, a ≠ .shared (.go t ch) := by rintro t ch rfl; cases hp
  have hsh : ∀ a', a ≠ .shared a' := by rintro a' rfl; cases hp
  have hreg : ∀ {j x}, Reg cs' pend' j x → Reg cs pend j x := fun hx => reg_own hcs hk hgo hx
  have hput : KPut K KS cs pend i KS' pend' := by
    rcases hk with ⟨j, hj, hk⟩ | ⟨_, _, hn, _⟩
    · have : a.actor = some i := by cases a <;> first | exact hp | (cases hp; done)
      rw [this] at hj; injection hj with hj; subst hj; exact hk
    · rw [hp] at hn; cases hn
  have book := OwnBook.of hl hp ha
  have known : ∀ {x e}, (∀ j, a ≠ .drop j) → Reg cs pend i x → h.Acc x e →
      h.view i e ∨ ∃ b ∈ K'.led i, b.Has x ∧ h.mine x e ∧ h.since x < e ∧ ¬ PGives K r x a :=
    fun hnd hR he => hi.own_known hl hp hd ha inv' hnd hR he
  have dead : ∀ j, a = .drop j → K'.live i = false := by
    rintro j rfl
    injection hp with hp; subst hp
    cases ha
    exact put_same _ _ _
  obtain ⟨scs, B, sinv⟩ := hi.inv.reach.inv
  obtain ⟨scs', B', sinv'⟩ := inv'.reach.inv
  have hT : ∀ x, TouchesBy (fun q => pstep q a) ps x → Reg cs pend i x := fun x hx => hi.inv.own_reg hl hp hx
  obtain ⟨f1, f2, f3, f4, f5⟩ := (Frames.own ps hp).facts hs
  have w := hi.core.wf
  refine ⟨KS', cs', pend', inv', ?_, ?_⟩
  · refine hi.core.local sinv (hh.local w) (fun x hx => hi.inv.regOwned (hT x hx)) f1 f2 f3 f4 (eff.mem hsh)
      (fun x hx => hi.inv.regOwned (hT x (.of_changed hs hx))) hput.busy (fun _ => hi.mem.known i book.ready.1) ?_
    intro b hb x e hx he
    have hdi : K'.direct.busy i = none := by rw [book.direct]; exact book.ready.2.2
    have hidle : ps.s.pcs i = .idle := by
      have := hi.inv.busyD book.ready.2.1
      rw [book.ready.2.2] at this
      exact (sinv.busy_none this.symm).1
    have hbz : ∃ c, KS'.busy i = some (c, some b) := by
      have : ps'.s.pcs i = .idle ∨ ∃ c, ps'.s.pcs i = .rd c := by rw [hidle] at f5; exact f5
      generalize KS'.busy i = z at hb ⊢
      rcases this with hpc | ⟨c, hpc⟩ <;>
      · rw [hpc] at hb
        match z, hb with
        | some (c, some b'), hb =>
          have : b = b' := by cases c <;> simpa [Pc.has] using hb
          subst this
          exact ⟨c, rfl⟩
        | some (c, none), hb => cases c <;> cases hb
        | none, hb => cases hb
    obtain ⟨c, hbz⟩ := hbz
    obtain ⟨hled, hlive⟩ := inv'.lent hbz hdi
    have hnd : ∀ j, a ≠ .drop j := fun j hj => by rw [dead j hj] at hlive; cases hlive
    rcases hput.gave c b hbz with ⟨d, hdm, rfl⟩ | hbd
    · have hR : Reg cs pend i x := ⟨d, hdm, (Chunk.own_has ((hi.inv.px i).ok d hdm)).mp hx⟩
      rcases known hnd hR he with h1 | ⟨b, hb, _⟩
      · exact h1
      · rw [hled] at hb; cases hb
    · rw [← book.direct] at hbd
      rw [← sinv'.has i] at hb
      exact absurd hx (sinv'.blkOwned hb hx (inv'.tiles.memD hbd))
  · refine hi.mem.advance w (hh.ev w) (fun j x _ hx => hreg hx) (fun j hj b hb => by rw [(book.others j hj).1]; exact hb) ?_ ?_ ?_ ?_ ?_ ?_ ?_
    · intro j x hj hx ht
      exact (hi.inv.sep hj (hT x ht) (hreg hx)).elim
    · intro j x hj hx hg
      obtain ⟨b, hb, hbx⟩ := own_gives hp ha hg
      exact inv'.sep hj (inv'.led_inCs (.inl hb) hbx) hx
    · intro x e hx he _
      refine known ?_ (hreg hx) he
      intro j hj
      have hx' := inv'.px i
      rw [dead j hj] at hx'
      obtain ⟨_, _, _, _, h1, h2⟩ := hx'.dead
      obtain ⟨c, hc, _⟩ := hx
      rw [h1, h2] at hc; cases hc
    · intro b x hb hx
      by_cases hg : PGives K r x a
      · left
        refine ⟨hg, fun e he _ => ?_⟩
        obtain ⟨b', hb', hbx'⟩ := own_gives hp ha hg
        rcases known (by rintro j rfl; exact hg) (hreg (inv'.led_inCs (.inl hb') hbx')) he with h1 | ⟨_, _, _, _, _, h5⟩
        · exact h1
        · exact absurd hg h5
      · right
        refine ⟨hg, ?_⟩
        rcases hb with hb | ⟨j, hb⟩
        · rw [book.direct] at hb
          exact ⟨⟨b, .inl hb, hx⟩, fun ht => (hi.inv.sepD hb hx (hT x ht)).elim⟩
        · by_cases hj : j = i
          · subst hj
            have hb0 := own_left hp ha hb hx hg
            exact ⟨⟨b, .inr ⟨j, hb0⟩, hx⟩, fun ht => absurd (hi.inv.own_untouched hl hp ha ht hb0 hb hx) hg⟩
          · rw [(book.others j hj).1] at hb
            exact ⟨⟨b, .inr ⟨j, hb⟩, hx⟩, fun ht => (hi.inv.sep hj (hT x ht) (hi.inv.led_inCs (.inl hb) hx)).elim⟩
    · intro x _
      cases r with
      | none => exact .inr (.inl (.inr (book.waits rfl)))
      | some v => exact .inr (.inr (by simp))
    · intro u hu
      left
      have hui : u ≠ i := by
        rintro rfl
        rcases hu with hu | hu
        · exact hu book.ready.2.2
        · exact hu book.ready.2.1
      unfold PBook.Inside at hu ⊢
      rw [book.direct, (book.others u hui).2.1]
      exact hu
    · intro j hj
      by_cases hji : j = i
      · subst hji; exact book.live hj
      · rw [(book.others j hji).2.2] at hj; exact hj

end

end Blink
