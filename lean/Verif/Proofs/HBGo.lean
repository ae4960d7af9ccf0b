import Verif.Spec.HB
import Verif.Proofs.Keeps
import Verif.Proofs.SyncExact
import Verif.Proofs.SyncCas
import Verif.Proofs.Direct
/-
  What a step of a thread does to the blocks of threads, to the room in the newest chunk and to the list of chunks.
-/
namespace Blink

/-- The blocks of a thread that executes the recorded call and is at `pc`. -/
def Pc.has : Option (Call × Option Owned) → Pc → List Owned
  | some (.allocate l, _), .ret _ (.block s) => [Owned.of s l]
  | some (.resize _ _ new, _), .ret _ (.block s) => [Owned.of s new]
  | some (.resize .., some b), .ret _ .err => [b]
  | _, .ret _ _ => []
  | some (_, some b), .copy _ _ _ new s _ => [Owned.of s new, b]
  | some (_, some b), _ => [b]
  | _, _ => []

theorem TOK.has {m root sn bz pc B} (h : TOK m root sn bz pc B) : B = pc.has bz := by
  cases h <;> first | rfl | (rename_i hj; cases hj <;> rfl) | skip
  all_goals first | (rename_i hj _; cases hj <;> rfl) | (rename_i hj _ _; cases hj <;> rfl)

theorem SInv.has {s0 s cs K B} (h : SInv s0 s cs K B) (t : Nat) : B t = (s.pcs t).has (K.busy t) := (h.thr t).has

theorem AInv.room' {w cs F m} (h : AInv w cs F) :
    St.room ⟨w, ⟨rootOf cs, m⟩⟩ = cs.head?.map (fun c => (c.cursor, c.end_)) := by
  unfold St.room
  cases cs with
  | nil => rfl
  | cons c tl =>
    have h1 : rootOf (c :: tl) = c.start := rfl
    have := (h.ok c List.mem_cons_self).pos
    dsimp only
    rw [h1, if_neg (by omega), decodeWord_of h.rep.1.1, decodeWord_of h.rep.1.2.1]
    rfl

/-- `x` is in the free part of the newest chunk. -/
def SS.InRoom (s : SS) (x : Nat) : Prop := ∃ p e, s.toLocal.room = some (p, e) ∧ p ≤ x ∧ x < e

/-- What a step of thread `t` does to the blocks of threads, to the free space, and to the list of chunks. -/
structure GoSum (s s' : SS) (hold : Prop) (bt bt' : List Owned) : Prop where
  blocks : ∀ b ∈ bt', ∀ x, b.Has x → (∃ b0 ∈ bt, b0.Has x) ∨ (hold ∧ s.InRoom x) ∨ ¬ s.w.Holds x
  room : ∀ x, s'.InRoom x → s.InRoom x ∨ ¬ s.w.Holds x
  heads : ∀ B ∈ openBlocks s'.w.log, B ∈ openBlocks s.w.log ∨ ∀ x, B.addr ≤ x → x < B.addr + B.len → ¬ s.w.Holds x
  head : ∀ B, (openBlocks s'.w.log).head? = some B → (openBlocks s.w.log).head? = some B ∨
    ∀ x, B.addr ≤ x → x < B.addr + B.len → ¬ s.w.Holds x
  held : ∀ x, s.w.Holds x → s'.w.Holds x

theorem GoSum.of_world {s s' : SS} {hold : Prop} {bt bt'} (hw : s'.w = s.w) (hr : s'.root = s.root)
    (hb : ∀ b ∈ bt', ∀ x, b.Has x → ∃ b0 ∈ bt, b0.Has x) : GoSum s s' hold bt bt' where
  blocks := fun b h x hx => .inl (hb b h x hx)
  room := by
    intro x ⟨p, e, h1, h2⟩
    refine .inl ⟨p, e, ?_, h2⟩
    unfold SS.toLocal St.room at h1 ⊢
    dsimp only at h1 ⊢
    rw [hw, hr] at h1
    exact h1
  heads := fun B h => .inl (hw ▸ h)
  head := fun B h => .inl (hw ▸ h)
  held := fun x h => hw ▸ h

/-- Only the cursor of the newest chunk moves up. -/
theorem GoSum.of_cursor {s0 s cs K B c tl} (hi : SInv s0 s cs K B) (hcs : cs = c :: tl) {v : Nat} (h1 : c.cursor ≤ v) (h2 : v ≤ c.end_)
    {s' : SS} (hw : s'.w = setCursor s.w c v) (hr : s'.root = s.root) {hold : Prop} (hho : hold) {bt bt' : List Owned}
    (hb : ∀ b ∈ bt', ∀ x, b.Has x → (∃ b0 ∈ bt, b0.Has x) ∨ c.cursor ≤ x ∧ x < c.end_) : GoSum s s' hold bt bt' := by
  subst hcs
  have hin : ∀ x, c.cursor ≤ x ∧ x < c.end_ → s.InRoom x := fun x hx => ⟨c.cursor, c.end_, hi.room, hx⟩
  refine ⟨fun b h x hx => ?_, ?_, fun B h => .inl (by rw [hw] at h; exact h), fun B h => .inl (by rw [hw] at h; exact h),
    fun x h => by rw [hw]; exact h⟩
  · rcases hb b h x hx with h3 | h3
    · exact .inl h3
    · exact .inr (.inl ⟨hho, hin x h3⟩)
  · intro x ⟨p, e, h3, h4⟩
    have hlo := (hi.arena.ok c List.mem_cons_self).lo
    have ha := (hi.arena.setCursor (n := v) (by omega) h2).room' (m := s'.minChunk)
    unfold SS.toLocal at h3
    rw [hw, hr, hi.root] at h3
    rw [show rootOf ({ c with cursor := v } :: tl) = rootOf (c :: tl) from rfl, h3] at ha
    simp only [List.head?_cons, Option.map_some, Option.some.injEq, Prod.mk.injEq] at ha
    obtain ⟨rfl, rfl⟩ := ha
    exact .inl (hin x (by omega))

/-- A chunk is added, or nothing happens. -/
theorem GoSum.of_slow {s0 s cs K B} (hi : SInv s0 s cs K B) {l : Layout} (hl : l.Valid) {m : Nat} {ob : Option Slice} {w' cs'}
    (hres : SlowRes s.w cs m l ob w' cs') (ha : AInv w' cs' s0.w.held)
    {s' : SS} (hw : s'.w = w') (hr : s'.root = rootOf cs') {hold : Prop} {bt bt' : List Owned}
    (hb : ∀ b ∈ bt', ∀ x, b.Has x → (∃ b0 ∈ bt, b0.Has x) ∨ ∃ sl, ob = some sl ∧ sl.addr ≤ x ∧ x < sl.addr + sl.len)
    : GoSum s s' hold bt bt' := by
  have hroom := ha.room' (m := s'.minChunk)
  have hroom' : ∀ x, s'.InRoom x → ∃ p e, cs'.head?.map (fun c => (c.cursor, c.end_)) = some (p, e) ∧ p ≤ x ∧ x < e := by
    intro x ⟨p, e, h3, h4⟩
    unfold SS.toLocal at h3
    rw [hw, hr, hroom] at h3
    exact ⟨p, e, h3, h4⟩
  cases hres with
  | tooBig h =>
    refine .of_world hw (by rw [hr, hi.root]) fun b h x hx => ?_
    rcases hb b h x hx with h3 | ⟨sl, h3, _⟩
    · exact h3
    · cases h3
  | refused R h ho =>
    refine ⟨fun b h x hx => ?_, ?_, ?_, ?_, ?_⟩
    · rcases hb b h x hx with h3 | ⟨sl, h3, _⟩
      · exact .inl h3
      · cases h3
    · intro x hx
      obtain ⟨p, e, h1, h2⟩ := hroom' x hx
      exact .inl ⟨p, e, by rw [hi.room]; exact h1, h2⟩
    · intro B hB; rw [hw] at hB; exact .inl hB
    · intro B hB; rw [hw] at hB; exact .inl hB
    · intro x hx; rw [hw]; exact hx
  | ok R sl m' h ho hf hbp hm hu =>
    have hfr : ∀ x, sl.addr ≤ x → x < sl.addr + sl.len → ¬ s.w.Holds x := by
      intro x h1 h2 ⟨Bk, hBk, h3, h4⟩
      have := (freshOk_facts hf).2.2.2.2 Bk hBk
      omega
    have hbb := bump_facts hl hbp
    refine ⟨fun b h x hx => ?_, ?_, ?_, ?_, ?_⟩
    · rcases hb b h x hx with h3 | ⟨sl', h3, h4, h5⟩
      · exact .inl h3
      · injection h3 with h3
        subst h3
        simp only at h4 h5
        exact .inr (.inr (hfr x (by omega) (by omega)))
    · intro x hx
      obtain ⟨p, e, h1, h2⟩ := hroom' x hx
      simp only [newChunk, List.head?_cons, Option.map_some, Option.some.injEq, Prod.mk.injEq] at h1
      exact .inr (hfr x (by omega) (by omega))
    · intro B hB
      rw [hw] at hB
      rcases List.mem_cons.mp hB with rfl | hB
      · exact .inr fun x h1 h2 => hfr x h1 h2
      · exact .inl hB
    · intro B hB
      rw [hw] at hB
      simp only [openBlocks, List.head?_cons, Option.some.injEq] at hB
      subst hB
      exact .inr fun x h1 h2 => hfr x h1 h2
    · intro x ⟨Bk, hBk, h3⟩
      rw [hw]
      exact ⟨Bk, List.mem_cons_of_mem _ hBk, h3⟩

/-- Only bytes in use are written. -/
theorem GoSum.of_used {s0 s cs K B} (hi : SInv s0 s cs K B) {s' : SS} {p n : Nat} {f : Nat → Byte} (hu : n = 0 ∨ InUsed cs p n)
    (hw : s'.w = { s.w with mem := setBytes s.w.mem p n f }) (hr : s'.root = s.root) {hold : Prop} {bt bt' : List Owned}
    (hb : ∀ b ∈ bt', ∀ x, b.Has x → ∃ b0 ∈ bt, b0.Has x) : GoSum s s' hold bt bt' := by
  refine ⟨fun b h x hx => .inl (hb b h x hx), ?_, fun B h => .inl (by rw [hw] at h; exact h), fun B h => .inl (by rw [hw] at h; exact h),
    fun x h => by rw [hw]; exact h⟩
  intro x ⟨q, e, h3, h4⟩
  refine .inl ⟨q, e, ?_, h4⟩
  have ha := (hi.arena.setUsed (f := f) hu).room' (m := s'.minChunk)
  unfold SS.toLocal at h3
  rw [hw, hr, hi.root, ha] at h3
  rw [hi.room]
  exact h3

theorem Job.got_has {m sn bz j B} (h : JobOK m sn bz j B) (wr : Bool) (b : Slice) :
    (j.got wr b).has bz = Owned.of b j.layout :: B ∨ (j.got wr b).has bz = [Owned.of b j.layout] := by
  cases h with
  | alloc => exact .inr rfl
  | resize => exact .inl rfl

/-- The blocks of a thread that has neither a new block nor a result yet. -/
def lentTo : Option (Call × Option Owned) → List Owned
  | some (_, some b) => [b]
  | _ => []

/-- Neither copying nor returning. -/
def Pc.plain : Pc → Bool
  | .ret .. | .copy .. => false
  | _ => true

theorem Pc.has_plain {pc : Pc} (h : pc.plain = true) (bz : Option (Call × Option Owned)) : pc.has bz = lentTo bz := by
  rcases bz with _ | ⟨c, _ | b⟩ <;> cases pc <;> first | rfl | (exact Bool.noConfusion h) | (cases c <;> rfl)

/-- Summary of a step. -/
theorem SInv.goSum {s0 s cs K B} (hi : SInv s0 s cs K B) {t ch r s'} (hgo : goStep s t ch = .ok (some (r, s'))) :
    r = none → GoSum s s' ((s.pcs t).holdsR = true ∨ (s.pcs t).holdsW = true) (B t) ((s'.pcs t).has (K.busy t)) := by
  intro hr
  have ht := hi.thr t
  have hB := hi.has t
  obtain ⟨R, hL, _, _⟩ := hi.fam.focus t
  have keep : ∀ {s1 : SS} {pc pc' : Pc}, s.pcs t = pc → s1.w = s.w → s1.root = s.root → pc.plain = true → pc'.plain = true →
      GoSum s (s1.setPc t pc') ((s.pcs t).holdsR = true ∨ (s.pcs t).holdsW = true) (B t) (((s1.setPc t pc').pcs t).has (K.busy t)) := by
    intro s1 pc pc' hpc h1 h2 h3 h4
    refine .of_world h1 h2 ?_
    rw [SS.setPc_same, hB, hpc, Pc.has_plain h3, Pc.has_plain h4]
    exact fun b hb x hx => ⟨b, hb, hx⟩
  cases hi.go_res hgo with
  | @acq c hpc hw =>
    refine .of_world rfl rfl ?_
    rw [SS.setPc_same]
    rw [hpc] at ht hB
    generalize B t = bt at ht hL hB ⊢
    generalize K.busy t = bz at ht hB ⊢
    cases ht with
    | rdAlloc h => simp only [enter]; split <;> (intro b hb; cases hb)
    | @rdResize b p old new j =>
      simp only [enter]
      split
      · exact fun b hb x hx => ⟨b, hb, hx⟩
      split
      · split
        · intro b' hb' x hx
          simp only [Pc.has, List.mem_singleton] at hb'
          subst hb'
          cases j with
          | resize hf hv hs =>
            have := hf.1; have := hf.2.2.2
            simp only [Owned.Has, Owned.of] at hx
            exact ⟨b, List.mem_cons_self, by simp only [Owned.Has]; omega⟩
        · exact fun b hb x hx => ⟨b, hb, hx⟩
      · exact fun b hb x hx => ⟨b, hb, hx⟩
    | rdDealloc hf =>
      simp only [enter]
      split
      · intro b hb; cases hb
      · exact fun b hb x hx => ⟨b, hb, hx⟩
  | @load c tl j hpc hcs hrt => exact keep hpc rfl rfl rfl rfl
  | @noroom c tl j v hpc hcs hrt hb => exact keep hpc rfl rfl rfl rfl
  | @commit c tl j a hpc hcs hrt hb hsp =>
    rw [hpc] at ht
    obtain ⟨hj⟩ : JobOK s.w.mem (K.snap t) (K.busy t) j (B t) ∧ True := by
      generalize B t = bt at ht ⊢
      generalize K.busy t = bz at ht ⊢
      cases ht with
      | cas _ hj => exact ⟨hj, trivial⟩
    have hbf := bump_facts hj.valid hb
    refine .of_cursor hi hcs (v := a + j.layout.size) (by omega) hbf.2.2.2 (by rfl) (by rfl) (.inl (by rw [hpc]; rfl)) ?_
    rw [SS.setPc_same]
    intro b hb x hx
    have key : b = Owned.of ⟨a, j.layout.size⟩ j.layout ∨ b ∈ B t := by
      rcases Job.got_has hj false ⟨a, j.layout.size⟩ with h | h
      · rw [h] at hb; exact List.mem_cons.mp hb
      · rw [h] at hb; exact .inl (List.mem_singleton.mp hb)
    rcases key with rfl | h
    · simp only [Owned.Has, Owned.of] at hx
      exact .inr (by omega)
    · exact .inl ⟨b, h, hx⟩
  | @retry c tl j v a hpc hcs hrt hb hf => exact keep hpc rfl rfl rfl rfl
  | @rtip c tl p old new hpc hcs hrt hv => exact keep hpc rfl rfl rfl rfl
  | @rnot c tl p old new hpc hcs hrt hv => exact keep hpc rfl rfl rfl rfl
  | @rnoroom c tl p old new hpc hcs hrt hb => exact keep hpc rfl rfl rfl rfl
  | @rcommit c tl p old new hpc hcs hrt hb hv =>
    rw [hpc] at ht
    have hj : JobOK s.w.mem (K.snap t) (K.busy t) (.resize p old new) (B t) ∧ old.size < new.size := by
      generalize B t = bt at ht ⊢
      generalize K.busy t = bz at ht ⊢
      cases ht with
      | rcas _ hj _ hs => exact ⟨hj, hs⟩
    obtain ⟨hj, hs⟩ := hj
    refine .of_cursor hi hcs (v := p + new.size) (by omega) hb (by rfl) (by rfl) (.inl (by rw [hpc]; rfl)) ?_
    rw [SS.setPc_same]
    generalize B t = bt at hj ⊢
    generalize K.busy t = bz at hj ⊢
    cases hj with
    | @resize b _ _ _ hf hv' hs' =>
      intro b' hb' x hx
      simp only [Pc.has, List.mem_singleton] at hb'
      subst hb'
      simp only [Owned.Has, Owned.of] at hx
      have := hf.1; have := hf.2.2.2
      by_cases hxo : x < p + old.size
      · exact .inl ⟨b, List.mem_cons_self, by simp only [Owned.Has]; omega⟩
      · exact .inr (by omega)
  | @rfail c tl p old new hpc hcs hrt hb hv => exact keep hpc rfl rfl rfl rfl
  | @free p n seen' hpc =>
    refine .of_world rfl rfl ?_
    rw [SS.setPc_same]
    rw [hpc] at ht
    generalize B t = bt at ht ⊢
    generalize K.busy t = bz at ht ⊢
    cases ht
    intro b hb; cases hb
  | @unlock j hpc => exact keep hpc rfl rfl rfl rfl
  | @wr j hpc hw hrd => exact keep hpc rfl rfl rfl rfl
  | @slowErr j w' cs' hpc he =>
    rw [hpc] at ht
    have hj : JobOK s.w.mem (K.snap t) (K.busy t) j (B t) := by
      generalize B t = bt at ht ⊢
      generalize K.busy t = bz at ht ⊢
      cases ht with
      | slow hj => exact hj
    have hb : (Pc.ret true .err).has (K.busy t) = B t := by
      generalize B t = bt at hj ⊢
      generalize K.busy t = bz at hj ⊢
      cases hj <;> rfl
    rcases allocSlow_spec hi.arena hj.valid hi.dbg with ⟨e, _, he'⟩ | ⟨r', w1, cs1, he', hres, ha⟩
    · rw [← hi.root, he] at he'; cases he'
    · rw [← hi.root, he] at he'
      simp only [Except.ok.injEq, Prod.mk.injEq] at he'
      obtain ⟨⟨rfl, hrt⟩, rfl⟩ := he'
      refine .of_slow hi hj.valid hres ha rfl hrt ?_
      rw [SS.setPc_same, hb]
      exact fun b hb x hx => .inl ⟨b, hb, hx⟩
  | @slowOk j b w' cs' hpc he =>
    rw [hpc] at ht
    have hj : JobOK s.w.mem (K.snap t) (K.busy t) j (B t) := by
      generalize B t = bt at ht ⊢
      generalize K.busy t = bz at ht ⊢
      cases ht with
      | slow hj => exact hj
    rcases allocSlow_spec hi.arena hj.valid hi.dbg with ⟨e, _, he'⟩ | ⟨r', w1, cs1, he', hres, ha⟩
    · rw [← hi.root, he] at he'; cases he'
    · rw [← hi.root, he] at he'
      simp only [Except.ok.injEq, Prod.mk.injEq] at he'
      obtain ⟨⟨rfl, hrt⟩, rfl⟩ := he'
      refine .of_slow hi hj.valid hres ha rfl hrt ?_
      rw [SS.setPc_same]
      intro b' hb x hx
      have key : b' = Owned.of b j.layout ∨ b' ∈ B t := by
        rcases Job.got_has hj true b with h | h
        · rw [h] at hb; exact List.mem_cons.mp hb
        · rw [h] at hb; exact .inl (List.mem_singleton.mp hb)
      rcases key with rfl | h
      · exact .inr ⟨b, rfl, hx⟩
      · exact .inl ⟨b', h, hx⟩
  | @copy wr p old new b k hpc hk hu1 hu2 =>
    have hb : (Pc.copy wr p old new b (k + 1)).has (K.busy t) = B t := by
      rw [hB, hpc]
      generalize K.busy t = bz
      rcases bz with _ | ⟨c, _ | b⟩ <;> first | rfl | (cases c <;> rfl)
    refine .of_used hi (.inr hu2) (by rfl) (by rfl) ?_
    rw [SS.setPc_same, hb]
    exact fun b hb x hx => ⟨b, hb, hx⟩
  | @copied wr p old new b k hpc hk =>
    refine .of_world rfl rfl ?_
    rw [SS.setPc_same]
    rw [hpc] at ht
    generalize B t = bt at ht ⊢
    generalize K.busy t = bz at ht ⊢
    cases ht
    intro b' hb' x hx
    simp only [Pc.has, List.mem_singleton] at hb'
    subst hb'
    exact ⟨_, List.mem_cons_self, hx⟩
  | retW => cases hr
  | retR => cases hr

/-- A step that delivers a result. -/
theorem SInv.goRet {s0 s cs K B} (hi : SInv s0 s cs K B) {t ch v s'} (hgo : goStep s t ch = .ok (some (some v, s'))) :
    s'.w = s.w ∧ s'.root = s.root ∧ ∃ wr, s.pcs t = .ret wr v := by
  cases hi.go_res hgo with
  | retW hpc => exact ⟨rfl, rfl, _, hpc⟩
  | retR hpc => exact ⟨rfl, rfl, _, hpc⟩

/-- A step of a thread leaves the other threads where they are. -/
theorem SInv.goOther {s0 s cs K B} (hi : SInv s0 s cs K B) {t ch r s'} (hgo : goStep s t ch = .ok (some (r, s'))) {u} (hu : u ≠ t) :
    s'.pcs u = s.pcs u := by
  cases hi.go_res hgo <;> exact SS.setPc_ne _ _ hu

end Blink
