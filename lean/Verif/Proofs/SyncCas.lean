import Verif.Proofs.SyncSolo
import Verif.Props.Room
/-
  What threads know about the cursor, and undisturbed calls as part of histories.
-/
namespace Blink

/-- The cursor of the current chunk only moves forward while somebody holds the read lock. -/
theorem GoRes.cursor_mono {s0 s cs K B t ch r s'} (h : SInv s0 s cs K B) (hg : GoRes s cs t ch r s') (hrd : s.readers ≠ [])
    {v : Nat} (hv : s.cursor = some v) : ∃ v', s'.cursor = some v' ∧ v ≤ v' := by
  have ht := h.thr t
  obtain ⟨bz, hbz⟩ : ∃ bz, K.busy t = bz := ⟨_, rfl⟩
  obtain ⟨Bt, hB⟩ : ∃ Bt, B t = Bt := ⟨_, rfl⟩
  rw [hbz, hB] at ht
  have hno : s.writer = none := by
    cases hw : s.writer with
    | none => rfl
    | some u => exact absurd (h.lock.excl (by rw [hw]; simp)) hrd
  have hnw : (s.pcs t).holdsW = false := by
    cases hh : (s.pcs t).holdsW with
    | false => rfl
    | true => have := (h.lock.wr t).mpr hh; rw [hno] at this; cases this
  have hval : ∀ {j : Job} {v : Nat}, s.pcs t = .cas s.root j v → j.layout.Valid := by
    intro j v hj
    rw [hj] at ht; cases ht; exact JobOK.valid ‹_›
  cases hg with
  | @commit c tl j a hpc hcs hr hb hsp =>
    subst hcs
    have hf := bump_facts (hval hpc) hb
    have := (h.arena.ok c List.mem_cons_self).lo
    have hA := h.arena.setCursor (n := a + j.layout.size) (by omega) (by omega)
    rw [h.cursor_eq rfl] at hv
    injection hv with hv
    refine ⟨a + j.layout.size, ?_, by omega⟩
    show decodeWord (setCursor s.w c (a + j.layout.size)).mem s.root = _
    rw [hr]
    exact decodeWord_of hA.rep.1.1
  | @rcommit c tl p old new hpc hcs hr hb hv' =>
    subst hcs
    rw [hpc] at ht
    cases ht with
    | rcas hr0 hj ha hs =>
      have := (h.arena.ok c List.mem_cons_self).lo
      have hA := h.arena.setCursor (n := p + new.size) (by omega) (by omega)
      rw [h.cursor_eq rfl] at hv
      injection hv with hv
      refine ⟨p + new.size, ?_, by omega⟩
      show decodeWord (setCursor s.w c (p + new.size)).mem s.root = _
      rw [hr]
      exact decodeWord_of hA.rep.1.1
  | slowErr hpc => rw [hpc] at hnw; cases hnw
  | slowOk hpc => rw [hpc] at hnw; cases hnw
  | @copy wr p old new b k hpc hk hu1 hu2 =>
    have hA := h.arena.setUsed (f := fun _ => s.w.mem (p + k)) (.inr hu2)
    cases cs with
    | nil => obtain ⟨d, hd, _⟩ := hu2; cases hd
    | cons c tl =>
      rw [h.cursor_eq rfl] at hv
      injection hv with hv
      refine ⟨c.cursor, ?_, by omega⟩
      show decodeWord _ s.root = _
      rw [show s.root = c.start from h.root]
      exact decodeWord_of hA.rep.1.1
  | _ => exact ⟨v, hv, Nat.le_refl _⟩

/-- The value of the cursor a thread has read and is about to use. -/
def Pc.read : Pc → Option Nat
  | .cas _ _ v => some v
  | .rcas _ _ _ _ v => some v
  | _ => none

/-- A value of the cursor that a thread has read is one the cursor of the current chunk had. -/
def SS.readOK' (s : SS) : Prop := ∀ t v, (s.pcs t).read = some v → ∃ cur, s.cursor = some cur ∧ v ≤ cur

def SS.readOK (s : SS) : Prop :=
  ∀ t c j v, s.pcs t = .cas c j v → ∃ cur, s.cursor = some cur ∧ v ≤ cur

theorem SInv.getD_le {s0 s c tl K B} (h : SInv s0 s (c :: tl) K B) (i : Nat) : (c.cursor :: s.seen).getD i c.cursor ≤ c.cursor := by
  rw [List.getD_eq_getElem?_getD]
  cases hx : (c.cursor :: s.seen)[i]? with
  | none => simp
  | some x =>
    have := List.mem_of_getElem? hx
    rw [List.mem_cons] at this
    rcases this with rfl | hm
    · simp
    · have := h.seen c tl rfl x hm
      simpa using this

theorem SReach.readOK' {s0 s K} (h : SReach s0 s K) : s.readOK' := by
  obtain ⟨h0, tr, hr⟩ := h
  induction hr with
  | nil =>
    intro t v hpc
    rw [h0.pcs t] at hpc; cases hpc
  | @snoc tr s K a r s' K' hr hl hs ha ih =>
    obtain ⟨cs, B, hI⟩ := hr.inv h0
    intro t v hpc
    have hall : (∀ u, K.busy u = none) → ∀ u, s.pcs u = .idle := fun hq u => (hI.busy_none (hq u)).1
    have hreset : ∀ k, (∀ u, K.busy u = none) → resetStep s k = .ok (some (r, s')) → s'.pcs t = .idle := by
      intro k hq hres
      unfold resetStep at hres
      cases hx : arenaReset s.root k s.w with
      | error e => rw [ebind_err hx] at hres; cases hres
      | ok y =>
        rw [ebind_ok hx] at hres
        injection hres with hres; injection hres with hres; injection hres with _ h2
        subst h2
        exact hall hq t
    have hcall : ∀ u cl, sstep s (.call u cl) = .ok (some (r, s')) → ∃ cur, s'.cursor = some cur ∧ v ≤ cur := by
      intro u cl hs
      simp only [sstep] at hs
      split at hs
      · injection hs with hs; injection hs with hs; injection hs with _ h2
        subst h2
        by_cases hu : t = u
        · subst hu; rw [SS.setPc_same] at hpc; cases hpc
        · rw [SS.setPc_ne _ _ hu] at hpc
          exact ih t v hpc
      · cases hs
    cases hl with
    | allocate => exact hcall _ _ hs
    | resize => exact hcall _ _ hs
    | deallocate => exact hcall _ _ hs
    | @go u ch =>
      have hg := hI.go_res hs
      by_cases hu : t = u
      · subst hu
        cases hg with
        | @load c tl j hpc' hcs hr =>
          subst hcs
          rw [SS.setPc_same] at hpc
          have h3 := Option.some.inj hpc
          exact ⟨c.cursor, hI.cursor_eq rfl, h3 ▸ hI.getD_le _⟩
        | @retry c tl j v a hpc' hcs hr hb hf =>
          subst hcs
          rw [SS.setPc_same] at hpc
          have h3 := Option.some.inj hpc
          exact ⟨c.cursor, hI.cursor_eq rfl, h3 ▸ hI.getD_le _⟩
        | @acq cl hpc' hw =>
          rw [SS.setPc_same] at hpc
          unfold enter at hpc
          cases cl <;> dsimp only at hpc <;> repeat' split at hpc
          all_goals cases hpc
        | @rtip c tl p old new hpc' hcs hr hv =>
          subst hcs
          rw [SS.setPc_same] at hpc
          have h3 := Option.some.inj hpc
          exact ⟨c.cursor, hI.cursor_eq rfl, h3 ▸ hv ▸ hI.getD_le _⟩
        | @commit c tl j a => rw [SS.setPc_same] at hpc; cases j <;> cases hpc
        | @slowOk j => rw [SS.setPc_same] at hpc; cases j <;> cases hpc
        | _ => rw [SS.setPc_same] at hpc; cases hpc
      · rw [hg.others hu] at hpc
        obtain ⟨cur, h1, h2⟩ := ih t v hpc
        have hne : s.readers ≠ [] := by
          have := (hI.lock.rd t).mpr (by cases hx : s.pcs t <;> rw [hx] at hpc <;> first | rfl | cases hpc)
          intro hn; rw [hn] at this; cases this
        obtain ⟨v', h3, h4⟩ := hg.cursor_mono hI hne h1
        exact ⟨v', h3, by omega⟩
    | @write b x v' ho hx =>
      simp only [sstep] at hs
      injection hs with hs; injection hs with hs; injection hs with _ h2
      subst h2
      obtain ⟨cur, h1, h2⟩ := ih t v hpc
      cases cs with
      | nil => obtain ⟨_, _, _, d, hd, _⟩ := hI.fam.owned.each b ho; cases hd
      | cons c0 tl =>
        have hA := hI.arena.setUsed (f := fun _ => v') (.inr (hI.fam.owned.byte ho hx))
        rw [hI.cursor_eq rfl] at h1
        injection h1 with h1
        refine ⟨c0.cursor, ?_, by omega⟩
        unfold SS.cursor
        rw [show s.root = c0.start from hI.root]
        exact decodeWord_of hA.rep.1.1
    | reset hq => have := hreset _ hq hs; rw [this] at hpc; cases hpc
    | resetUnchecked hq =>
      simp only [sstep] at hs
      split at hs
      · have := hreset _ hq hs; rw [this] at hpc; cases hpc
      · cases hs
    | resetFinal hq => have := hreset _ hq hs; rw [this] at hpc; cases hpc

theorem SReach.readOK {s0 s K} (h : SReach s0 s K) : s.readOK := by
  intro t c j v hpc
  exact h.readOK' t v (by rw [hpc]; rfl)

theorem SInv.room {s0 s cs K B} (h : SInv s0 s cs K B) : s.toLocal.room = cs.head?.map (fun c => (c.cursor, c.end_)) := by
  unfold St.room SS.toLocal
  dsimp only
  rw [h.root]
  cases cs with
  | nil => rfl
  | cons c t =>
    have hne : rootOf (c :: t) ≠ 0 := by rw [Ne, rootOf_eq_zero h.arena.ok]; simp
    rw [if_neg hne]
    have h1 := h.arena.rep.1
    simp only [rootOf, decodeWord_of h1.1, decodeWord_of h1.2.1, List.head?_cons, Option.map_some]

/-- An undisturbed thread finishes, even if its last look at the cursor is out of date. -/
theorem SInv.finishes {s0 : SS} {K : Book} {t : Nat} : ∀ (n : Nat) {s cs B}, SInv s0 s cs K B → K.busy t ≠ none → s.Free t →
    s.left (s.pcs t) ≤ n → (∃ r s', Blink.solo n s t = .ok (some (r, s'))) ∨
      ∃ e w, Blink.solo n s t = .error e ∧ w.oracle = s0.w.oracle ∧ BadAnswer w e := by
  intro n
  induction n with
  | zero =>
    intro s cs B h hb hf hn
    have hi : s.pcs t = .idle := by
      cases hp : s.pcs t <;> rw [hp] at hn <;> simp [SS.left] at hn
      · split at hn <;> omega
    have := h.thr t
    rw [hi] at this
    exact absurd this.of_idle hb
  | succ n ih =>
    intro s cs B h hb hf hn
    unfold Blink.solo
    rcases h.go_exact t fresh with ⟨e, j, hpc, hbad, he, hgo⟩ | ⟨hw, _⟩ | ⟨r, s', hgo, hg⟩
    · rw [hgo]; exact .inr ⟨e, s.w, rfl, h.oracle, hbad⟩
    · exact absurd hw (h.not_waits hf hb)
    · rw [hgo]
      cases r with
      | some r => exact .inl ⟨r, s', rfl⟩
      | none =>
        obtain ⟨cs', B', h'⟩ := h.next hgo
        have hlt := h.left_lt hg
        exact ih h' hb (hg.free' hf) (by omega)

theorem JobOK.bytes {m sn c ob j B} (h : JobOK m sn (some (c, ob)) j B) : j.bytes = c.bytes := by cases h <;> rfl

/-- The measure is bounded by the call being executed. -/
theorem SInv.left_call {s0 s cs K B} (h : SInv s0 s cs K B) {t : Nat} {c ob} (hb : K.busy t = some (c, ob)) :
    s.left (s.pcs t) ≤ c.bytes + 10 := by
  have ht := h.thr t
  obtain ⟨Bt, hB⟩ : ∃ Bt, B t = Bt := ⟨_, rfl⟩
  rw [hb, hB] at ht
  obtain ⟨pc, hpc⟩ : ∃ pc, s.pcs t = pc := ⟨_, rfl⟩
  rw [hpc] at ht ⊢
  cases ht with
  | rdAlloc => simp only [SS.left]; omega
  | rdResize => simp only [SS.left]; omega
  | rdDealloc => simp only [SS.left]; omega
  | load _ hj => have := hj.bytes; simp only [SS.left]; omega
  | cas _ hj => have := hj.bytes; simp only [SS.left]; split <;> omega
  | rload _ hj => cases hj; simp only [SS.left, Call.bytes]; omega
  | rcas _ hj => cases hj; simp only [SS.left, Call.bytes]; omega
  | free => simp only [SS.left]; omega
  | unlockSlow hj => have := hj.bytes; simp only [SS.left]; omega
  | wr hj => have := hj.bytes; simp only [SS.left]; omega
  | slow hj => have := hj.bytes; simp only [SS.left]; omega
  | copy => simp only [SS.left, Call.bytes]; omega
  | retAllocOk => simp only [SS.left]; omega
  | retAllocErr => simp only [SS.left]; omega
  | retResizeOk => simp only [SS.left]; omega
  | retResizeErr => simp only [SS.left]; omega
  | retDealloc => simp only [SS.left]; omega

theorem solo_mono {n m : Nat} {s : SS} {t : Nat} {x} (h : solo n s t = .ok (some x)) (hnm : n ≤ m) : solo m s t = .ok (some x) := by
  induction n generalizing s m with
  | zero => cases h
  | succ n ih =>
    obtain ⟨m, rfl⟩ : ∃ m', m = m' + 1 := ⟨m - 1, by omega⟩
    unfold solo at h ⊢
    split at h <;> first | cases h | skip
    · rfl
    · exact ih h (by omega)

/-- Undisturbed execution is one particular schedule. -/
theorem solo_run {s0 K t r s'} : ∀ (n : Nat) {s}, SReach s0 s K → solo n s t = .ok (some (r, s')) →
    ∃ c ob, K.busy t = some (c, ob) ∧ SReach s0 s' { K with owned := gets c ob r ++ K.owned, busy := put K.busy t none } := by
  intro n
  induction n with
  | zero => intro s _ h; cases h
  | succ n ih =>
    intro s hr h
    obtain ⟨cs, B, hI⟩ := hr.inv
    unfold solo at h
    split at h <;> first | cases h | skip
    · rename_i hgo
      obtain ⟨c, ob, _, _, hb, ha, _⟩ := hI.done hgo
      obtain ⟨h0, tr, hrun⟩ := hr
      exact ⟨c, ob, hb, h0, _, hrun.snoc .go hgo ha⟩
    · rename_i s1 hgo
      obtain ⟨h0, tr, hrun⟩ := hr
      exact ih ⟨h0, _, hrun.snoc (a := .go t fresh) .go hgo .inside⟩ h

end Blink
