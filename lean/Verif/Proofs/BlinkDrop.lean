import Verif.Proofs.BlinkOps
/-
  `DropList::reset`.
-/
namespace Blink

theorem bytesAt_congr {m m' : Nat → Byte} {a n : Nat} (h : ∀ x, a ≤ x → x < a + n → m' x = m x) : bytesAt m' a n = bytesAt m a n := by
  unfold bytesAt
  apply List.map_congr_left
  intro i hi
  rw [List.mem_range] at hi
  exact h _ (by omega) (by omega)

theorem Ref.events_congr {m m' : Nat → Byte} {r : Ref} (h : ∀ x, r.Has x → m' x = m x) : r.events m' = r.events m := by
  unfold Ref.events
  apply List.map_congr_left
  intro k hk
  rw [List.mem_range] at hk
  have : k * r.size + r.size ≤ r.count * r.size := by
    rw [← Nat.succ_mul]; exact Nat.mul_le_mul_right _ hk
  rw [bytesAt_congr fun x h1 h2 => h x ⟨by omega, by omega⟩]

/-- The state after some destructor runs `evs` that left memory `m`. -/
def BState.after (b : BState) (evs : List DropEv) (m : Nat → Byte) : BState :=
  { b with drops := evs.reverse ++ b.drops, s := { b.s with w := { b.s.w with mem := m } } }

theorem BState.after_after (b : BState) (e1 e2 : List DropEv) (m1 m2 : Nat → Byte) :
    (b.after e1 m1).after e2 m2 = b.after (e1 ++ e2) m2 := by
  unfold BState.after
  simp

theorem BState.after_nil (b : BState) : b.after [] b.s.w.mem = b := rfl

/-- How the runs `evs` went, `due` being the ones that were due; `p`: one had panicked before. -/
structure Ran (b : BState) (p : Bool) (due evs : List DropEv) (out : DOut) : Prop where
  pre : evs <+: due
  all : out ≠ .aborted → evs = due
  fine : out = .fine → p = false ∧ ∀ k, k < evs.length → (b.dtors (b.drops.length + k)).panics = false
  not : out ≠ .fine → p = true ∨ ∃ k, k < evs.length ∧ (b.dtors (b.drops.length + k)).panics = true

/-- One element. -/
def Ref.event (m : Nat → Byte) (r : Ref) (k : Nat) : DropEv :=
  .item r.tid (r.addr + k * r.size) (bytesAt m (r.addr + k * r.size) r.size)

theorem dropSlice_spec {s0 types cs L m0 rid} {r : Ref} {o : Owned} (hd : DropOK types m0 r rid o) (ht : (types rid).OK) (ho : o ∈ L) :
    ∀ (n i : Nat) (p : Bool) (b : BState), i + n = r.count → KindInv k s0 b.s cs L →
      (∀ x, ¬ (r.addr ≤ x ∧ x < r.addr + i * r.size) → b.s.w.mem x = m0 x) →
      ∃ out evs m, dropSlice (types rid) n (o.addr + valueOff (types rid).align + i * (types rid).size) p b = .ok (out, b.after evs m) ∧
        Ran b p ((List.range' i n).map (r.event m0)) evs out ∧ KindInv k s0 (b.after evs m).s cs L ∧
        ∀ x, ¬ r.Has x → m x = m0 x
  | 0, i, p, b, hi, hI, hm => by
    refine ⟨if p then .panicked else .fine, [], b.s.w.mem, rfl, ⟨List.prefix_refl _, fun _ => rfl, ?_, ?_⟩, hI, ?_⟩
    · cases p <;> simp
    · cases p <;> simp
    · intro x hx
      apply hm
      rw [show i = r.count by omega]
      exact hx
  | n + 1, i, p, b, hi, hI, hm => by
    have hv := valueOff_facts ht.align
    have hok := ht.okIn
    have hlen := hd.len
    have hmul : i * (types rid).size + (types rid).size ≤ r.count * (types rid).size := by
      rw [← Nat.succ_mul]; exact Nat.mul_le_mul_right _ (by omega)
    have hmul2 : i * r.size + r.size ≤ r.count * r.size := by
      rw [← Nat.succ_mul]; exact Nat.mul_le_mul_right _ (by omega)
    -- where the element is
    have haddr : o.addr + valueOff (types rid).align + i * (types rid).size + (types rid).okOff = r.addr + i * r.size := by
      have h1 := hd.addr
      have h2 := hd.size
      rcases hd.one with h3 | h3
      · obtain ⟨p1, p2, p3⟩ := ht.plain h3
        rw [p3] at h1 ⊢
        rw [h2, ← p1]; omega
      · have : i = 0 := by omega
        subst this
        simp only [Nat.zero_mul]; omega
    have hget : slotGet (types rid) (o.addr + valueOff (types rid).align + i * (types rid).size) b.s.w = .ok (none, b.s.w) := by
      apply slotGet_none
      intro d hdd
      have hc : r.count = 1 := by
        rcases hd.one with h3 | h3
        · rw [h3] at hdd; cases hdd
        · exact h3
      have : i = 0 := by omega
      subst this
      rw [hm _ (by simp only [Nat.zero_mul, Nat.add_zero]; omega)]
      simpa using hd.disc d hdd
    unfold dropSlice
    rw [ebind_ok' (BState.mem_id hget)]
    dsimp only
    -- the destructor of this element
    have hacc : b.s.w.accessible (r.addr + i * r.size) r.size = true := by
      apply hI.acc ho
      · omega
      · have := hd.size; omega
    have hev : bytesAt b.s.w.mem (r.addr + i * r.size) r.size = bytesAt m0 (r.addr + i * r.size) r.size :=
      bytesAt_congr fun x h1 h2 => hm x (by omega)
    have hda : b.dropAt (types rid).tid (types rid).tsize (o.addr + valueOff (types rid).align + i * (types rid).size + (types rid).okOff) =
        .ok ((b.dtors b.drops.length).panics, b.after [r.event m0 i]
          (setBytes b.s.w.mem (r.addr + i * r.size) r.size (b.dtors b.drops.length).leaves)) := by
      unfold BState.dropAt
      rw [haddr, ← hd.size, if_pos (.inr hacc), ← hd.tid, hev]
      rfl
    rw [ebind_ok' hda]
    dsimp only
    have hm' : ∀ x, ¬ (r.addr ≤ x ∧ x < r.addr + (i + 1) * r.size) →
        setBytes b.s.w.mem (r.addr + i * r.size) r.size (b.dtors b.drops.length).leaves x = m0 x := by
      intro x hx
      rw [Nat.succ_mul] at hx
      rw [setBytes_out (by omega)]
      exact hm x (by omega)
    have hI' : KindInv k s0 (b.after [r.event m0 i]
          (setBytes b.s.w.mem (r.addr + i * r.size) r.size (b.dtors b.drops.length).leaves)).s cs L :=
      hI.setMem ho (by omega) (by have := hd.size; omega)
    by_cases hab : p = true ∧ (b.dtors b.drops.length).panics = true
    · rw [if_pos hab]
      refine ⟨.aborted, [r.event m0 i], _, rfl, ⟨?_, by simp, by simp, fun _ => .inl hab.1⟩, hI', ?_⟩
      · rw [List.range'_succ, List.map_cons]
        exact ⟨_, rfl⟩
      · intro x hx
        apply hm' x
        intro hc
        apply hx
        have := mul_le_of_lt (k := i + 1) (n := r.count) (s := r.size) (by omega)
        exact ⟨hc.1, by omega⟩
    · rw [if_neg hab]
      obtain ⟨out, evs, m, e1, e2, e3, e4⟩ := dropSlice_spec hd ht ho n (i + 1) (p || (b.dtors b.drops.length).panics) _ (by omega) hI' hm'
      refine ⟨out, r.event m0 i :: evs, m, ?_, ?_, ?_, e4⟩
      · rw [show o.addr + valueOff (types rid).align + i * (types rid).size + (types rid).size =
          o.addr + valueOff (types rid).align + (i + 1) * (types rid).size by rw [Nat.succ_mul]; omega, e1, BState.after_after]
        rfl
      · refine ⟨?_, ?_, ?_, ?_⟩
        · rw [List.range'_succ, List.map_cons]
          exact List.cons_prefix_cons.mpr ⟨rfl, e2.pre⟩
        · intro h1
          rw [List.range'_succ, List.map_cons, e2.all h1]
        · intro h1
          obtain ⟨h2, h3⟩ := e2.fine h1
          simp only [Bool.or_eq_false_iff] at h2
          refine ⟨h2.1, fun k hk => ?_⟩
          cases k with
          | zero => exact h2.2
          | succ k =>
            have := h3 k (by simpa using hk)
            simp only [BState.after, List.reverse_singleton, List.singleton_append, List.length_cons] at this
            rw [show b.drops.length + (k + 1) = b.drops.length + 1 + k by omega]
            exact this
        · intro h1
          rcases e2.not h1 with h2 | ⟨k, hk, h3⟩
          · simp only [Bool.or_eq_true] at h2
            rcases h2 with h2 | h2
            · exact .inl h2
            · exact .inr ⟨0, by simp, h2⟩
          · refine .inr ⟨k + 1, by simpa using hk, ?_⟩
            simp only [BState.after, List.reverse_singleton, List.singleton_append, List.length_cons] at h3
            rw [show b.drops.length + (k + 1) = b.drops.length + 1 + k by omega]
            exact h3
      · rw [BState.after_after] at e3
        exact e3
where
  mul_le_of_lt {k n s : Nat} (h : k ≤ n) : k * s ≤ n * s := Nat.mul_le_mul_right _ h

/-- How the runs `evs` over the items `its` went. -/
structure RanAll (b : BState) (m : Nat → Byte) (its : List Item) (evs : List DropEv) (out : DOut) : Prop where
  pre : evs <+: its.flatMap (fun it => it.ref.events m)
  fine : out = .fine → evs = its.flatMap (fun it => it.ref.events m) ∧
    ∀ k, k < evs.length → (b.dtors (b.drops.length + k)).panics = false
  panicked : out = .panicked → ∃ before it post, its = before ++ it :: post ∧
    evs = (before ++ [it]).flatMap (fun it => it.ref.events m)
  not : out ≠ .fine → ∃ k, k < evs.length ∧ (b.dtors (b.drops.length + k)).panics = true

theorem dropLoop_spec {s0 types cs L} (hty : ∀ k, RTy.OK (types k)) :
    ∀ (its : List Item) (fuel root : Nat) (b : BState), b.types = types → KindInv k s0 b.s cs L →
      (its.filterMap (·.blk)).Sublist L → (∀ it ∈ its, it.ref.drop = true) → (∀ it ∈ its, ItemOK types b.s.w.mem it) →
      Chain b.s.w.mem root its → its.length ≤ fuel →
      ∃ out evs m, dropLoop fuel root b = .ok (out, b.after evs m) ∧ RanAll b b.s.w.mem its evs out ∧
        KindInv k s0 (b.after evs m).s cs L ∧ ∀ x, (∀ it ∈ its, ¬ it.ref.Has x) → m x = b.s.w.mem x
  | [], fuel, root, b, _, hI, _, _, _, hch, _ => by
    have : root = 0 := hch
    subst this
    exact ⟨.fine, [], b.s.w.mem, by unfold dropLoop; rfl, ⟨by simp, by simp, by simp, by simp⟩, hI, fun _ _ => rfl⟩
  | it :: its, 0, root, b, _, _, _, _, _, _, hfuel => by simp at hfuel
  | it :: its, fuel + 1, root, b, hb, hI, hsub, hdr, hok, hch, hfuel => by
    obtain ⟨o, nx, hblk, hroot, hlen24, hnext, hch'⟩ := hch
    have hit := hok it List.mem_cons_self
    obtain ⟨o', ho', hd⟩ := hit.dr (hdr it List.mem_cons_self)
    rw [hblk] at ho'
    injection ho' with ho'
    subst ho'
    have hoL : o ∈ L := hsub.subset (List.mem_filterMap.mpr ⟨it, List.mem_cons_self, hblk⟩)
    have hal := hd.al
    obtain ⟨q, hq⟩ : ∃ q, root = q + 1 := ⟨root - 1, by have := hd.pos; omega⟩
    have hq1 : q + 1 = o.addr := by omega
    subst hq
    rw [List.filterMap_cons, hblk] at hsub
    dsimp only at hsub
    -- the record
    have l1 : b.mem (loadWord (q + 1)) = .ok (it.ref.count, b) := BState.mem_id (by
      rw [hq1]; exact loadWord_ok hal (hI.acc hoL (by omega) (by omega)) hd.cnt)
    have l2 : b.mem (loadWord (q + 1 + 8)) = .ok (it.rid, b) := BState.mem_id (by
      rw [hq1]; exact loadWord_ok (by omega) (hI.acc hoL (by omega) (by omega)) hd.fn)
    have l3 : b.mem (loadWord (q + 1 + 16)) = .ok (nx, b) := BState.mem_id (by
      rw [hq1]; exact loadWord_ok (by omega) (hI.acc hoL (by omega) (by omega)) hnext)
    unfold dropLoop
    rw [ebind_ok' l1]
    dsimp only
    rw [ebind_ok' l2]
    dsimp only
    rw [ebind_ok' l3]
    dsimp only
    rw [hb, hq1]
    obtain ⟨out, evs, m, e1, e2, e3, e4⟩ := dropSlice_spec hd (hty it.rid) hoL it.ref.count 0 false b (by omega) hI (fun _ _ => rfl)
    rw [Nat.zero_mul, Nat.add_zero] at e1
    rw [ebind_ok' e1]
    dsimp only
    have hdue : (List.range' 0 it.ref.count).map (it.ref.event b.s.w.mem) = it.ref.events b.s.w.mem := by
      rw [← List.range_eq_range']; rfl
    rw [hdue] at e2
    have nf : out ≠ .fine → RanAll b b.s.w.mem (it :: its) evs out ∧ KindInv k s0 (b.after evs m).s cs L ∧
        ∀ x, (∀ it' ∈ it :: its, ¬ it'.ref.Has x) → m x = b.s.w.mem x := by
      intro hne
      refine ⟨⟨?_, fun h => absurd h hne, ?_, ?_⟩, e3, fun x hx => e4 x (hx it List.mem_cons_self)⟩
      · rw [List.flatMap_cons]
        exact e2.pre.trans (List.prefix_append _ _)
      · intro hp
        refine ⟨[], it, its, rfl, ?_⟩
        rw [e2.all (by rw [hp]; simp)]
        simp
      · intro h
        rcases e2.not h with h | h
        · cases h
        · exact h
    cases out with
    | panicked => exact ⟨.panicked, evs, m, rfl, nf (by simp)⟩
    | aborted => exact ⟨.aborted, evs, m, rfl, nf (by simp)⟩
    | fine =>
      dsimp only
      have hin : ∀ x, it.ref.Has x → o.Has x := by
        intro x hx
        rcases hit.inside with h0 | ⟨o2, ho2, h1, h2⟩
        · unfold Ref.Has at hx; omega
        · rw [hblk] at ho2
          injection ho2 with ho2
          subst ho2
          exact ⟨by have := hx.1; omega, by have := hx.2; omega⟩
      have hap : ∀ it' ∈ its, ∀ o', it'.blk = some o' → ∀ x, o'.Has x → m x = b.s.w.mem x := by
        intro it' hit' o' ho' x hx
        apply e4
        intro hx'
        have h1 := (hI.apart.sublist hsub)
        rw [List.pairwise_cons] at h1
        exact h1.1 o' (List.mem_filterMap.mpr ⟨it', hit', ho'⟩) x ⟨hin x hx', hx⟩
      have hrefs : ∀ it' ∈ its, ∀ x, it'.ref.Has x → m x = b.s.w.mem x := by
        intro it' hit' x hx
        rcases (hok it' (List.mem_cons_of_mem _ hit')).inside with h0 | ⟨o2, ho2, h1, h2⟩
        · unfold Ref.Has at hx; omega
        · exact hap it' hit' o2 ho2 x ⟨by have := hx.1; omega, by have := hx.2; omega⟩
      obtain ⟨out', evs', m', f1, f2, f3, f4⟩ := dropLoop_spec hty its fuel nx (b.after evs m) hb e3
        ((List.sublist_cons_self _ _).trans hsub)
        (fun it' h => hdr it' (List.mem_cons_of_mem _ h))
        (fun it' h => (hok it' (List.mem_cons_of_mem _ h)).congr hty fun o' ho' x hx => hap it' h o' ho' x hx)
        (hch'.congr fun it' h o' ho' x hx => hap it' h o' ho' x hx) (by simpa using hfuel)
      have hfl : ∀ l : List Item, (∀ it' ∈ l, it' ∈ its) →
          l.flatMap (fun it => it.ref.events (b.after evs m).s.w.mem) = l.flatMap (fun it => it.ref.events b.s.w.mem) := by
        intro l hl
        induction l with
        | nil => rfl
        | cons a l ih =>
          rw [List.flatMap_cons, List.flatMap_cons, ih fun it' h => hl it' (List.mem_cons_of_mem _ h)]
          congr 1
          exact Ref.events_congr fun x hx => hrefs a (hl a List.mem_cons_self) x hx
      have hevs := e2.all (by simp)
      refine ⟨out', evs ++ evs', m', by rw [f1, BState.after_after], ⟨?_, ?_, ?_, ?_⟩, by rw [BState.after_after] at f3; exact f3, ?_⟩
      · rw [List.flatMap_cons, hevs]
        have := f2.pre
        rw [hfl its fun _ h => h] at this
        exact (List.prefix_append_right_inj _).mpr this
      · intro h
        obtain ⟨g1, g2⟩ := f2.fine h
        rw [hfl its fun _ h => h] at g1
        refine ⟨by rw [List.flatMap_cons, hevs, g1], fun k hk => ?_⟩
        by_cases hlt : k < evs.length
        · exact (e2.fine rfl).2 k hlt
        · have := g2 (k - evs.length) (by rw [List.length_append] at hk; omega)
          simp only [BState.after, List.length_append, List.length_reverse] at this
          rw [show evs.length + b.drops.length + (k - evs.length) = b.drops.length + k by omega] at this
          exact this
      · intro h
        obtain ⟨before, it', post, g1, g2⟩ := f2.panicked h
        refine ⟨it :: before, it', post, by rw [g1]; rfl, ?_⟩
        rw [List.cons_append, List.flatMap_cons, hevs, g2, hfl]
        intro it2 h2
        rw [g1]
        simp only [List.mem_append, List.mem_cons, List.not_mem_nil, or_false] at h2 ⊢
        rcases h2 with h2 | h2
        · exact .inl h2
        · exact .inr (.inl h2)
      · intro h
        obtain ⟨k, hk, g⟩ := f2.not h
        refine ⟨evs.length + k, by rw [List.length_append]; omega, ?_⟩
        simp only [BState.after, List.length_append, List.length_reverse] at g
        rw [show b.drops.length + (evs.length + k) = evs.length + b.drops.length + k by omega]
        exact g
      · intro x hx
        rw [f4 x fun it' h => hx it' (List.mem_cons_of_mem _ h)]
        exact e4 x (hx it List.mem_cons_self)

end Blink
