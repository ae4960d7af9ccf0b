import Verif.Spec.Env
import Verif.Proofs.Blind
import Verif.Proofs.Frame
/-
  Every function of the arena does the same with and without blocks of others.
-/
namespace Blink

/-- The world `w` is `v` and the blocks `O` of others, whose bytes are those of `m0`. -/
structure Priv (O : List BaseBlk) (m0 : Nat → Byte) (w v : World) : Prop extends Alongside O w v where
  ok : HeldOK w
  pos : ∀ b ∈ v.held, 0 < b.req.size
  oth : ∀ b ∈ O, ∀ x, b.Holds x → w.mem x = m0 x

/-- What happens alone (`b`) happens among others (`a`), unless the underlying allocator gives away memory of others. -/
def RelE {α : Type} (O : List BaseBlk) (Q : α → α → Prop) (a b : Except Fault α) : Prop :=
  (∀ z', b = .ok z' → (∃ z, a = .ok z ∧ Q z z') ∨ ∃ l sl, a = .error (.env l sl) ∧ Hits O sl) ∧
  ∀ e, (∀ why, e ≠ .ub why) → b = .error e → a = .error e ∨ ∃ l' sl', a = .error (.env l' sl') ∧ Hits O sl'

/-- `f` does the same alone and among others. -/
structure RelM {α : Type} (f : M α) : Prop where
  rel : ∀ {O m0 w v}, Priv O m0 w v → RelE O (fun p q => p.1 = q.1 ∧ Priv O m0 p.2 q.2) (f w) (f v)

theorem RelE.ok {α : Type} {O : List BaseBlk} {Q : α → α → Prop} {z z' : α} (h : Q z z') : RelE O Q (.ok z) (.ok z') :=
  ⟨fun _ he => .inl ⟨z, rfl, by cases he; exact h⟩, fun _ _ he => nomatch he⟩

theorem RelE.error {α : Type} {O : List BaseBlk} {Q : α → α → Prop} (e : Fault) : RelE O Q (.error e) (.error e) :=
  ⟨fun _ he => (nomatch he), fun _ _ he => .inl he⟩

theorem RelE.pure {α : Type} {O : List BaseBlk} {Q : α → α → Prop} {z z' : α} (h : Q z z') : RelE O Q (Pure.pure z) (Pure.pure z') :=
  RelE.ok h

theorem RelE.bind {α β : Type} {O : List BaseBlk} {P : α → α → Prop} {Q : β → β → Prop} {a b : Except Fault α} {k k' : α → Except Fault β}
    (h : RelE O P a b) (hk : ∀ z z', P z z' → RelE O Q (k z) (k' z')) : RelE O Q (a >>= k) (b >>= k') := by
  constructor
  · intro y hy
    obtain ⟨z', hb, hy⟩ := ebind_split hy
    rcases h.1 z' hb with ⟨z, ha, hz⟩ | ⟨l, sl, ha, hh⟩
    · rw [ha]; exact (hk z z' hz).1 y hy
    · rw [ha]; exact .inr ⟨l, sl, rfl, hh⟩
  · intro f hf hy
    cases hb : b with
    | error e =>
      rw [hb] at hy
      injection hy with hy
      subst hy
      rcases h.2 _ hf hb with ha | ⟨l', sl', ha, hh⟩
      · rw [ha]; exact .inl rfl
      · rw [ha]; exact .inr ⟨l', sl', rfl, hh⟩
    | ok z' =>
      rw [hb] at hy
      rcases h.1 z' hb with ⟨z, ha, hz⟩ | ⟨l1, sl1, ha, hh⟩
      · rw [ha]; exact (hk z z' hz).2 f hf hy
      · rw [ha]; exact .inr ⟨l1, sl1, rfl, hh⟩

theorem RelE.of_error {α : Type} {O : List BaseBlk} {Q : α → α → Prop} {a : Except Fault α} {why : String} :
    RelE O Q a (.error (.ub why)) := ⟨fun _ he => (nomatch he), fun e hn he => by injection he with he; exact absurd he.symm (hn why)⟩

theorem RelM.pure {α : Type} (x : α) : RelM (Pure.pure x : M α) := ⟨fun h => RelE.ok ⟨rfl, h⟩⟩

theorem RelM.next {α β : Type} {x : M α} {f g : α → M β} (hx : RelM x) {O m0 w v} {Q : β × World → β × World → Prop} (h : Priv O m0 w v)
    (hf : ∀ a w' v', Priv O m0 w' v' → RelE O Q (f a w') (g a v')) : RelE O Q ((x >>= f) w) ((x >>= g) v) := by
  have h1 := hx.rel h
  constructor
  · intro y hy
    obtain ⟨a, v1, hv, hy⟩ := mbind_inv hy
    rcases h1.1 _ hv with ⟨⟨a', w1⟩, hw, he, hp⟩ | ⟨l, sl, hw, hh⟩
    · cases he
      rw [bind_ok hw]; exact (hf _ _ _ hp).1 y hy
    · rw [bind_err hw]; exact .inr ⟨l, sl, rfl, hh⟩
  · intro e1 hn hy
    cases hv : x v with
    | error e =>
      rw [bind_err hv] at hy
      injection hy with hy
      subst hy
      rcases h1.2 _ hn hv with ha | ⟨l', sl', ha, hh⟩
      · rw [bind_err ha]; exact .inl rfl
      · rw [bind_err ha]; exact .inr ⟨l', sl', rfl, hh⟩
    | ok q =>
      rw [bind_ok (a := q.1) (w' := q.2) hv] at hy
      rcases h1.1 _ hv with ⟨⟨a', w1⟩, hw, he, hp⟩ | ⟨l1, sl1, hw, hh⟩
      · cases he
        rw [bind_ok hw]; exact (hf _ _ _ hp).2 e1 hn hy
      · rw [bind_err hw]; exact .inr ⟨l1, sl1, rfl, hh⟩

theorem RelM.bind {α β : Type} {x : M α} {f : α → M β} (hx : RelM x) (hf : ∀ a, RelM (f a)) : RelM (x >>= f) :=
  ⟨fun h => hx.next h fun a _ _ hp => (hf a).rel hp⟩

theorem RelM.ub {α : Type} (why : String) : RelM (Blink.ub why : M α) := ⟨fun _ => .of_error⟩

theorem RelM.require (p : Prop) [Decidable p] (why : String) : RelM (Blink.require p why) := by
  refine ⟨fun {O m0 w v} h => ?_⟩
  unfold Blink.require
  by_cases hp : p
  · rw [if_pos hp, if_pos hp]; exact .ok ⟨rfl, h⟩
  · rw [if_neg hp, if_neg hp]; exact .of_error

theorem RelM.dassert (p : Prop) [Decidable p] (why : String) : RelM (Blink.dassert p why) := by
  refine ⟨fun {O m0 w v} h => ?_⟩
  unfold Blink.dassert
  rw [h.debug]
  by_cases hp : v.debug = true ∧ ¬ p
  · rw [if_pos hp, if_pos hp]; exact .error _
  · rw [if_neg hp, if_neg hp]; exact .ok ⟨rfl, h⟩

theorem RelM.addU (a b : Nat) : RelM (Blink.addU a b) := by
  refine ⟨fun {O m0 w v} h => ?_⟩
  unfold Blink.addU
  by_cases hp : a + b < USIZE
  · rw [if_pos hp, if_pos hp]; exact .ok ⟨rfl, h⟩
  · rw [if_neg hp, if_neg hp]; exact .of_error

theorem RelM.subU (a b : Nat) : RelM (Blink.subU a b) := by
  refine ⟨fun {O m0 w v} h => ?_⟩
  unfold Blink.subU
  by_cases hp : b ≤ a
  · rw [if_pos hp, if_pos hp]; exact .ok ⟨rfl, h⟩
  · rw [if_neg hp, if_neg hp]; exact .of_error

/-! ### Memory -/

theorem Priv.sub {O m0 w v} (h : Priv O m0 w v) {b : BaseBlk} (hb : b ∈ v.held) : b ∈ w.held :=
  h.held.mem_iff.mpr (List.mem_append_left _ hb)

theorem Priv.subO {O m0 w v} (h : Priv O m0 w v) {b : BaseBlk} (hb : b ∈ O) : b ∈ w.held :=
  h.held.mem_iff.mpr (List.mem_append_right _ hb)

theorem Priv.pairwise {O m0 w v} (h : Priv O m0 w v) : (v.held ++ O).Pairwise BaseBlk.Disjoint :=
  (h.held.pairwise_iff fun h => BaseBlk.Disjoint.symm h).mp h.ok.dis

theorem Priv.apart {O m0 w v} (h : Priv O m0 w v) {b c : BaseBlk} (hb : b ∈ v.held) (hc : c ∈ O) : b.Disjoint c :=
  (List.pairwise_append.mp h.pairwise).2.2 b hb c hc

theorem Priv.access {O m0 w v} (h : Priv O m0 w v) {a n : Nat} (ha : v.accessible a n = true) : w.accessible a n = true := by
  obtain ⟨b, hb, h1, h2⟩ := accessible_iff.mp ha
  exact accessible_of (h.sub hb) h1 h2

theorem Priv.eq_at {O m0 w v} (h : Priv O m0 w v) {a n : Nat} (ha : v.accessible a n = true) {x : Nat} (h1 : a ≤ x) (h2 : x < a + n) :
    w.mem x = v.mem x := by
  obtain ⟨b, hb, h3, h4⟩ := accessible_iff.mp ha
  exact h.mem b hb x ⟨by omega, by omega⟩

/-- Storing the same bytes in blocks of one's own. -/
theorem Priv.set {O m0 w v} (h : Priv O m0 w v) {a n : Nat} (ha : n = 0 ∨ v.accessible a n = true) {f g : Nat → Byte}
    (hf : ∀ i, i < n → f i = g i) :
    Priv O m0 { w with mem := setBytes w.mem a n f } { v with mem := setBytes v.mem a n g } where
  held := h.held
  mem := by
    intro b hb x hx
    show setBytes w.mem a n f x = setBytes v.mem a n g x
    unfold setBytes
    split
    · exact hf _ (by omega)
    · exact h.mem b hb x hx
  next := h.next
  log := h.log
  top := h.top
  debug := h.debug
  ok := ⟨h.ok.top, h.ok.dis, h.ok.rng⟩
  pos := h.pos
  oth := by
    intro b hb x hx
    show setBytes w.mem a n f x = m0 x
    rw [← h.oth b hb x hx]
    rcases ha with rfl | ha
    · exact setBytes_out (by omega)
    · obtain ⟨c, hc, h3, h4⟩ := accessible_iff.mp ha
      have := h.apart hc hb
      unfold BaseBlk.Disjoint at this
      obtain ⟨h5, h6⟩ := hx
      exact setBytes_out (by omega)

theorem RelM.loadWord (a : Nat) : RelM (Blink.loadWord a) := by
  refine ⟨fun {O m0 w v} h => ?_⟩
  unfold Blink.loadWord
  by_cases hp : a % 8 = 0 ∧ v.accessible a 8 = true
  · rw [if_pos hp, if_pos ⟨hp.1, h.access hp.2⟩]
    have : decodeWord w.mem a = decodeWord v.mem a := by
      unfold decodeWord
      have e : ∀ i, i < 8 → w.mem (a + i) = v.mem (a + i) := fun i hi => h.eq_at hp.2 (by omega) (by omega)
      have e0 := e 0 (by omega)
      rw [Nat.add_zero] at e0
      rw [e0]
      cases v.mem a <;> try rfl
      dsimp only
      congr 1
      refine congrArg (· = true) ?_
      have : ∀ l : List Nat, (∀ i ∈ l, i < 8) → ∀ u, (l.all fun i => w.mem (a + i) == .word u i) = l.all fun i => v.mem (a + i) == .word u i := by
        intro l hl u
        induction l with
        | nil => rfl
        | cons i l ih =>
          rw [List.all_cons, List.all_cons, ih fun j hj => hl j (List.mem_cons_of_mem _ hj), e i (hl i List.mem_cons_self)]
      exact this _ (fun i hi => List.mem_range.mp hi) _
    rw [this]
    cases decodeWord v.mem a with
    | none => exact .of_error
    | some u => exact .ok ⟨rfl, h⟩
  · rw [if_neg hp]; exact .of_error

theorem RelM.storeWord (a u : Nat) : RelM (Blink.storeWord a u) := by
  refine ⟨fun {O m0 w v} h => ?_⟩
  unfold Blink.storeWord
  by_cases hp : a % 8 = 0 ∧ v.accessible a 8 = true
  · rw [if_pos hp, if_pos ⟨hp.1, h.access hp.2⟩]
    exact .ok ⟨rfl, h.set (.inr hp.2) fun _ _ => rfl⟩
  · rw [if_neg hp]; exact .of_error

theorem RelM.copyNonoverlapping (src dst n : Nat) : RelM (Blink.copyNonoverlapping src dst n) := by
  refine ⟨fun {O m0 w v} h => ?_⟩
  unfold Blink.copyNonoverlapping
  by_cases hp : n = 0 ∨ (v.accessible src n = true ∧ v.accessible dst n = true ∧ (src + n ≤ dst ∨ dst + n ≤ src))
  · rw [if_pos hp, if_pos (hp.imp_right fun hp => ⟨h.access hp.1, h.access hp.2.1, hp.2.2⟩)]
    exact .ok ⟨rfl, h.set (hp.imp_right fun hp => hp.2.1) fun i hi => by
      rcases hp with hp | hp
      · omega
      · exact h.eq_at hp.1 (by omega) (by omega)⟩
  · rw [if_neg hp]; exact .of_error

theorem RelM.writeZeros (a n : Nat) : RelM (Blink.writeZeros a n) := by
  refine ⟨fun {O m0 w v} h => ?_⟩
  unfold Blink.writeZeros
  by_cases hp : n = 0 ∨ v.accessible a n = true
  · rw [if_pos hp, if_pos (hp.imp_right h.access)]
    exact .ok ⟨rfl, h.set hp fun _ _ => rfl⟩
  · rw [if_neg hp]; exact .of_error

theorem RelM.copyByte (src dst : Nat) : RelM (Blink.copyByte src dst) := by
  refine ⟨fun {O m0 w v} h => ?_⟩
  unfold Blink.copyByte
  by_cases hp : v.accessible src 1 = true ∧ v.accessible dst 1 = true
  · rw [if_pos hp, if_pos ⟨h.access hp.1, h.access hp.2⟩]
    exact .ok ⟨rfl, h.set (.inr hp.2) fun i hi => h.eq_at hp.1 (by omega) (by omega)⟩
  · rw [if_neg hp]; exact .of_error

/-! ### The underlying allocator -/

theorem RelM.baseAlloc {l : Layout} (hl : 0 < l.size) : RelM (Blink.baseAlloc l) := by
  refine ⟨fun {O m0 w v} h => ?_⟩
  have hn : ∀ k, w.oracle (w.calls + 1 + k) = v.oracle (v.calls + 1 + k) := fun k => by
    rw [Nat.add_assoc, Nat.add_assoc]; exact h.next _
  unfold Blink.baseAlloc
  rw [show w.oracle w.calls = v.oracle v.calls from h.next 0, h.log]
  cases hs : v.oracle v.calls with
  | none =>
    exact .ok ⟨rfl, ⟨⟨h.held, h.mem, hn, rfl, h.top, h.debug⟩, ⟨h.ok.top, h.ok.dis, h.ok.rng⟩, h.pos, h.oth⟩⟩
  | some sl =>
    dsimp only
    have hfr : freshOk w l sl = true ↔ freshOk v l sl = true ∧ ∀ b ∈ O, sl.len = 0 ∨ b.len = 0 ∨ sl.addr + sl.len ≤ b.addr ∨ b.addr + b.len ≤ sl.addr := by
      unfold freshOk
      rw [h.top]
      simp only [Bool.and_eq_true, List.all_eq_true, decide_eq_true_eq]
      constructor
      · rintro ⟨h1, h2⟩
        exact ⟨⟨h1, fun b hb => h2 b (h.sub hb)⟩, fun b hb => h2 b (h.subO hb)⟩
      · rintro ⟨⟨h1, h2⟩, h3⟩
        refine ⟨h1, fun b hb => ?_⟩
        rcases List.mem_append.mp (h.held.mem_iff.mp hb) with hb | hb
        · exact h2 b hb
        · exact h3 b hb
    by_cases hv : freshOk v l sl = true
    · rw [if_pos hv]
      by_cases hw : freshOk w l sl = true
      · rw [if_pos hw]
        have hw' := hw
        unfold freshOk at hw'
        simp only [Bool.and_eq_true, List.all_eq_true, decide_eq_true_eq] at hw'
        obtain ⟨⟨⟨⟨⟨g1, g2⟩, g3⟩, g4⟩, g5⟩, g6⟩ := hw'
        refine .ok ⟨rfl, ⟨⟨?_, ?_, hn, rfl, h.top, h.debug⟩, ⟨h.ok.top, ?_, ?_⟩, ?_, ?_⟩⟩
        · exact h.held.cons _
        · intro b hb x hx
          dsimp only
          unfold setBytes
          split
          · rfl
          · rename_i hn
            rcases List.mem_cons.mp hb with rfl | hb
            · exact absurd hx hn
            · exact h.mem b hb x hx
        · exact List.pairwise_cons.mpr ⟨fun b hb => g6 b hb, h.ok.dis⟩
        · intro b hb
          rcases List.mem_cons.mp hb with rfl | hb
          · exact ⟨g1, g5⟩
          · exact h.ok.rng b hb
        · intro b hb
          rcases List.mem_cons.mp hb with rfl | hb
          · exact hl
          · exact h.pos b hb
        · intro b hb x hx
          dsimp only
          rw [← h.oth b hb x hx]
          have := g6 b (h.subO hb)
          obtain ⟨h5, h6⟩ := hx
          exact setBytes_out (by omega)
      · rw [if_neg hw]
        have hex : ∃ b ∈ O, ¬ (sl.len = 0 ∨ b.len = 0 ∨ sl.addr + sl.len ≤ b.addr ∨ b.addr + b.len ≤ sl.addr) := by
          apply Classical.byContradiction
          intro hc
          exact hw (hfr.mpr ⟨hv, fun b hb => Classical.byContradiction fun hn => hc ⟨b, hb, hn⟩⟩)
        obtain ⟨b, hb, hn⟩ := hex
        have hh : Hits O sl := ⟨b, hb, max b.addr sl.addr, ⟨by omega, by omega⟩, by omega, by omega⟩
        exact ⟨fun _ _ => .inr ⟨l, sl, rfl, hh⟩, fun _ _ he => nomatch he⟩
    · rw [if_neg hv, if_neg fun hw => hv (hfr.mp hw).1]
      exact .error _

theorem RelM.baseDealloc (addr : Nat) (l : Layout) : RelM (Blink.baseDealloc addr l) := by
  refine ⟨fun {O m0 w v} h => ?_⟩
  unfold Blink.baseDealloc
  cases hf : v.held.find? (fun b => b.fits addr l) with
  | none => exact .of_error
  | some b =>
    have hb := List.mem_of_find?_eq_some hf
    have hbf : b.fits addr l = true := by simpa using List.find?_some hf
    cases hg : w.held.find? (fun b => b.fits addr l) with
    | none => exact absurd hbf (by simpa using List.find?_eq_none.mp hg b (h.sub hb))
    | some c =>
      have hc := List.mem_of_find?_eq_some hg
      have hcf : c.fits addr l = true := by simpa using List.find?_some hg
      have hp := h.pos b hb
      unfold BaseBlk.fits at hbf hcf
      simp only [Bool.and_eq_true, decide_eq_true_eq] at hbf hcf
      have hbc : c = b := by
        apply Decidable.byContradiction
        intro hne
        have h1 := ((List.perm_cons_erase hc).pairwise_iff fun h => BaseBlk.Disjoint.symm h).mp h.ok.dis
        have h2 := (List.pairwise_cons.mp h1).1 b ((List.mem_erase_of_ne (Ne.symm hne)).mpr (h.sub hb))
        unfold BaseBlk.Disjoint at h2
        omega
      subst hbc
      dsimp only
      rw [h.log]
      refine .ok ⟨rfl, ⟨⟨?_, ?_, h.next, rfl, h.top, h.debug⟩, ⟨h.ok.top, ?_, ?_⟩, ?_, ?_⟩⟩
      · refine (h.held.erase c).trans ?_
        rw [List.erase_append_left _ hb]
      · intro d hd x hx
        dsimp only
        unfold setBytes
        split
        · rfl
        · exact h.mem d (List.mem_of_mem_erase hd) x hx
      · exact h.ok.dis.sublist List.erase_sublist
      · exact fun d hd => h.ok.rng d (List.mem_of_mem_erase hd)
      · exact fun d hd => h.pos d (List.mem_of_mem_erase hd)
      · intro d hd x hx
        dsimp only
        rw [← h.oth d hd x hx]
        have := h.apart hb hd
        unfold BaseBlk.Disjoint at this
        obtain ⟨h5, h6⟩ := hx
        exact setBytes_out (by omega)

/-! ### The arena -/

/-- Close a goal about one call. -/
syntax "relm1" : tactic
macro_rules | `(tactic| relm1) => `(tactic| exact RelM.pure _)
macro_rules | `(tactic| relm1) => `(tactic| exact RelM.ub _)
macro_rules | `(tactic| relm1) => `(tactic| exact RelM.require _ _)
macro_rules | `(tactic| relm1) => `(tactic| exact RelM.dassert _ _)
macro_rules | `(tactic| relm1) => `(tactic| exact RelM.addU _ _)
macro_rules | `(tactic| relm1) => `(tactic| exact RelM.subU _ _)
macro_rules | `(tactic| relm1) => `(tactic| exact RelM.loadWord _)
macro_rules | `(tactic| relm1) => `(tactic| exact RelM.storeWord _ _)
macro_rules | `(tactic| relm1) => `(tactic| exact RelM.copyNonoverlapping _ _ _)
macro_rules | `(tactic| relm1) => `(tactic| exact RelM.writeZeros _ _)
macro_rules | `(tactic| relm1) => `(tactic| exact RelM.copyByte _ _)
macro_rules | `(tactic| relm1) => `(tactic| exact RelM.baseDealloc _ _)
macro_rules | `(tactic| relm1) => `(tactic| assumption)

/-- Take apart a function of the arena. -/
macro "relm" : tactic => `(tactic| repeat' first | intro _ | relm1 | refine RelM.bind ?_ ?_ | split)

theorem RelM.loadCursor (c : Nat) : RelM (Blink.loadCursor c) := .loadWord _
theorem RelM.loadEnd (c : Nat) : RelM (Blink.loadEnd c) := .loadWord _
theorem RelM.loadPrev (c : Nat) : RelM (Blink.loadPrev c) := .loadWord _
theorem RelM.loadCum (c : Nat) : RelM (Blink.loadCum c) := .loadWord _
macro_rules | `(tactic| relm1) => `(tactic| exact RelM.loadCursor _)
macro_rules | `(tactic| relm1) => `(tactic| exact RelM.loadEnd _)
macro_rules | `(tactic| relm1) => `(tactic| exact RelM.loadPrev _)
macro_rules | `(tactic| relm1) => `(tactic| exact RelM.loadCum _)

theorem RelM.chunkCap (c : Nat) : RelM (Blink.chunkCap c) := by
  unfold Blink.chunkCap; relm
macro_rules | `(tactic| relm1) => `(tactic| exact RelM.chunkCap _)

theorem RelM.initChunk (sl : Slice) (prev : Nat) : RelM (Blink.initChunk sl prev) := by
  unfold Blink.initChunk; relm
macro_rules | `(tactic| relm1) => `(tactic| exact RelM.initChunk _ _)

theorem RelM.deallocChunk (c : Nat) : RelM (Blink.deallocChunk c) := by
  unfold Blink.deallocChunk; relm
macro_rules | `(tactic| relm1) => `(tactic| exact RelM.deallocChunk _)

theorem RelM.layoutSum (l : Layout) : RelM (Blink.layoutSum l) := by
  unfold Blink.layoutSum; relm
macro_rules | `(tactic| relm1) => `(tactic| exact RelM.layoutSum _)

theorem RelM.tryBump (c e : Nat) (l : Layout) : RelM (Blink.tryBump c e l) := by
  unfold Blink.tryBump; relm
macro_rules | `(tactic| relm1) => `(tactic| exact RelM.tryBump _ _ _)

theorem RelM.cellCasWeak (a o n : Nat) : RelM (Blink.cellCasWeak a o n) := by
  unfold Blink.cellCasWeak; relm
macro_rules | `(tactic| relm1) => `(tactic| exact RelM.cellCasWeak _ _ _)

theorem RelM.cellCas (a o n : Nat) : RelM (Blink.cellCas a o n) := by
  unfold Blink.cellCas; relm
macro_rules | `(tactic| relm1) => `(tactic| exact RelM.cellCas _ _ _)

theorem RelM.chunkAlloc (c : Nat) (l : Layout) : RelM (Blink.chunkAlloc c l) := by
  unfold Blink.chunkAlloc; relm
macro_rules | `(tactic| relm1) => `(tactic| exact RelM.chunkAlloc _ _)

theorem RelM.chunkRealloc (c p : Nat) (o n : Layout) : RelM (Blink.chunkRealloc c p o n) := by
  unfold Blink.chunkRealloc; relm
macro_rules | `(tactic| relm1) => `(tactic| exact RelM.chunkRealloc _ _ _ _)

theorem RelM.chunkResize (c p : Nat) (o n : Layout) : RelM (Blink.chunkResize c p o n) := by
  unfold Blink.chunkResize; relm
macro_rules | `(tactic| relm1) => `(tactic| exact RelM.chunkResize _ _ _ _)

theorem RelM.chunkReset (c : Nat) : RelM (Blink.chunkReset c) := by
  unfold Blink.chunkReset; relm
macro_rules | `(tactic| relm1) => `(tactic| exact RelM.chunkReset _)

theorem RelM.chunkDealloc (c p n : Nat) : RelM (Blink.chunkDealloc c p n) := by
  unfold Blink.chunkDealloc; relm
macro_rules | `(tactic| relm1) => `(tactic| exact RelM.chunkDealloc _ _ _)

theorem RelM.allocChunk {size : Nat} (prev : Nat) (h : 0 < size) : RelM (Blink.allocChunk size prev) := by
  unfold Blink.allocChunk
  split
  · relm
  · rename_i n hn
    have h1 := (alignUp8_spec hn).1
    have := RelM.baseAlloc (l := ⟨n, HDR_ALIGN⟩) (by show 0 < n; omega)
    relm

theorem RelM.allocSlow (root m : Nat) (l : Layout) : RelM (Blink.allocSlow root m l) := by
  unfold Blink.allocSlow
  refine .bind (by relm) fun rc => ?_
  cases hcs : slowChunkSize rc m l with
  | none => relm
  | some cs =>
    have := RelM.allocChunk root (size := cs) (by have := slowChunkSize_ge hcs; omega)
    dsimp only
    relm
macro_rules | `(tactic| relm1) => `(tactic| exact RelM.allocSlow _ _ _)

theorem RelM.resizeSlow (root m p : Nat) (o n : Layout) : RelM (Blink.resizeSlow root m p o n) := by
  unfold Blink.resizeSlow; relm
macro_rules | `(tactic| relm1) => `(tactic| exact RelM.resizeSlow _ _ _ _ _)

theorem RelM.arenaDealloc (root p n : Nat) : RelM (Blink.arenaDealloc root p n) := by
  unfold Blink.arenaDealloc; relm
macro_rules | `(tactic| relm1) => `(tactic| exact RelM.arenaDealloc _ _ _)

theorem RelM.arenaResetLeak (root : Nat) (k : Bool) : RelM (Blink.arenaResetLeak root k) := by
  unfold Blink.arenaResetLeak; relm
macro_rules | `(tactic| relm1) => `(tactic| exact RelM.arenaResetLeak _ _)

theorem freeChain_rel (n : Nat) : ∀ (k p : Nat) {O m0 w v}, Priv O m0 w v →
    RelE O (fun p q => p.1 = q.1 ∧ Priv O m0 p.2 q.2) (freeChain (n + k) p w) (freeChain n p v) := by
  induction n with
  | zero =>
    intro k p O m0 w v h
    cases p with
    | zero => rw [freeChain, freeChain]; exact .ok ⟨rfl, h⟩
    | succ p => exact .of_error
  | succ n ih =>
    intro k p O m0 w v h
    cases p with
    | zero => rw [freeChain, freeChain]; exact .ok ⟨rfl, h⟩
    | succ p =>
      rw [show n + 1 + k = (n + k) + 1 by omega, freeChain, freeChain]
      exact (RelM.deallocChunk _).next h fun prev _ _ hp => ih k prev hp

/-- The loop of `reset` has more than enough fuel with blocks of others around. -/
theorem RelM.freeAll (p : Nat) : RelM (do let n ← heldCount; freeChain n p) := by
  refine ⟨fun {O m0 w v} h => ?_⟩
  have : w.held.length = v.held.length + O.length := by rw [h.held.length_eq, List.length_append]
  show RelE O _ (freeChain w.held.length p w) (freeChain v.held.length p v)
  rw [this]
  exact freeChain_rel _ _ _ h

theorem RelM.arenaReset (root : Nat) (k : Bool) : RelM (Blink.arenaReset root k) := by
  have e : Blink.arenaReset root k = if k = true then
      (if root = 0 then Pure.pure root
       else Blink.chunkReset root >>= fun prev => (heldCount >>= fun n => freeChain n prev) >>= fun _ => Pure.pure root)
      else ((heldCount >>= fun n => freeChain n root) >>= fun _ => Pure.pure 0) := by
    funext w
    cases k with
    | true =>
      by_cases hr : root = 0
      · simp [Blink.arenaReset, hr]
      · simp only [Blink.arenaReset, hr, if_true, if_false]
        rfl
    | false => rfl
  rw [e]
  split
  · split
    · relm
    · exact .bind (.chunkReset _) fun p => .bind (.freeAll p) fun _ => .pure _
  · exact .bind (.freeAll _) fun _ => .pure _
macro_rules | `(tactic| relm1) => `(tactic| exact RelM.arenaReset _ _)

/-! ### `BlinkAlloc` -/

theorem RelM.lastChunkSize (a : BA) : RelM a.lastChunkSize := by
  unfold BA.lastChunkSize; relm
theorem RelM.allocFast (a : BA) (l : Layout) : RelM (a.allocFast l) := by
  unfold BA.allocFast; relm
theorem RelM.resizeFast (a : BA) (p : Nat) (o n : Layout) : RelM (a.resizeFast p o n) := by
  unfold BA.resizeFast; relm
macro_rules | `(tactic| relm1) => `(tactic| exact RelM.lastChunkSize _)
macro_rules | `(tactic| relm1) => `(tactic| exact RelM.allocFast _ _)
macro_rules | `(tactic| relm1) => `(tactic| exact RelM.resizeFast _ _ _ _)

theorem RelM.allocate (a : BA) (l : Layout) : RelM (a.allocate l) := by
  unfold BA.allocate; relm
macro_rules | `(tactic| relm1) => `(tactic| exact RelM.allocate _ _)

theorem RelM.resize (a : BA) (p : Nat) (o n : Layout) : RelM (a.resize p o n) := by
  unfold BA.resize; relm
theorem RelM.deallocate (a : BA) (p n : Nat) : RelM (a.deallocate p n) := by
  unfold BA.deallocate; relm
theorem RelM.reset (a : BA) : RelM a.reset := by
  unfold BA.reset; relm
theorem RelM.resetFinal (a : BA) : RelM a.resetFinal := by
  unfold BA.resetFinal; relm
theorem RelM.allocateZeroed (a : BA) (l : Layout) : RelM (a.allocateZeroed l) := by
  unfold BA.allocateZeroed; relm
macro_rules | `(tactic| relm1) => `(tactic| exact RelM.allocateZeroed _ _)
macro_rules | `(tactic| relm1) => `(tactic| exact RelM.deallocate _ _ _)
theorem RelM.growZeroed (a : BA) (p : Nat) (o n : Layout) : RelM (a.growZeroed p o n) := by
  unfold BA.growZeroed; relm

/-- One call. -/
theorem step_rel {O m0 w v a} (h : Priv O m0 w v) {op : Op} (hw : ∀ x b, op = .write x b → v.accessible x 1 = true) :
    RelE O (fun p q => p.1 = q.1 ∧ p.2.a = q.2.a ∧ Priv O m0 p.2.w q.2.w) (step ⟨w, a⟩ op) (step ⟨v, a⟩ op) := by
  cases op with
  | allocate l => exact ((RelM.allocate a l).rel h).bind fun ⟨_, _⟩ ⟨_, _⟩ ⟨e, hp⟩ => by cases e; exact .pure ⟨rfl, rfl, hp⟩
  | allocateZeroed l => exact ((RelM.allocateZeroed a l).rel h).bind fun ⟨_, _⟩ ⟨_, _⟩ ⟨e, hp⟩ => by cases e; exact .pure ⟨rfl, rfl, hp⟩
  | resize p o n => exact ((RelM.resize a p o n).rel h).bind fun ⟨_, _⟩ ⟨_, _⟩ ⟨e, hp⟩ => by cases e; exact .pure ⟨rfl, rfl, hp⟩
  | growZeroed p o n => exact ((RelM.growZeroed a p o n).rel h).bind fun ⟨_, _⟩ ⟨_, _⟩ ⟨e, hp⟩ => by cases e; exact .pure ⟨rfl, rfl, hp⟩
  | deallocate p n => exact ((RelM.deallocate a p n).rel h).bind fun z z' ⟨e, hp⟩ => .pure ⟨rfl, rfl, hp⟩
  | reset => exact ((RelM.reset a).rel h).bind fun ⟨_, _⟩ ⟨_, _⟩ ⟨e, hp⟩ => by cases e; exact .pure ⟨rfl, rfl, hp⟩
  | resetFinal => exact ((RelM.resetFinal a).rel h).bind fun ⟨_, _⟩ ⟨_, _⟩ ⟨e, hp⟩ => by cases e; exact .pure ⟨rfl, rfl, hp⟩
  | write x b => exact .pure ⟨rfl, rfl, h.set (.inr (hw x b rfl)) fun _ _ => rfl⟩

/-! ### Threads -/

theorem RelM.andThen {α β : Type} {x : M α} (hx : RelM x) {O m0 w v} {Q : β → β → Prop} (h : Priv O m0 w v)
    {k k' : α × World → Except Fault β} (hk : ∀ a w' v', Priv O m0 w' v' → RelE O Q (k (a, w')) (k' (a, v'))) :
    RelE O Q (x w >>= k) (x v >>= k') :=
  (hx.rel h).bind fun ⟨_, _⟩ ⟨_, _⟩ ⟨e, hp⟩ => by cases e; exact hk _ _ _ hp

theorem RelM.loadRelaxed (c : Nat) (seen : List Nat) (ch : Choice) : RelM (Blink.loadRelaxed c seen ch) := by
  unfold Blink.loadRelaxed; relm
macro_rules | `(tactic| relm1) => `(tactic| exact RelM.loadRelaxed _ _ _)

theorem RelM.gotBlock (wr : Bool) (j : Job) (sl : Slice) : RelM (Blink.gotBlock wr j sl) := by
  unfold Blink.gotBlock; relm
macro_rules | `(tactic| relm1) => `(tactic| exact RelM.gotBlock _ _ _)

/-- The same outcome, up to the blocks of others. -/
def SameS (O : List BaseBlk) (m0 : Nat → Byte) (p q : Option (Option Resp × SS)) : Prop :=
  (p = none ∧ q = none) ∨ ∃ r s v, p = some (r, s) ∧ q = some (r, { s with w := v }) ∧ Priv O m0 s.w v

theorem SameS.some {O m0} {r : Option Resp} {s : SS} {v : World} (h : Priv O m0 s.w v) :
    SameS O m0 (Option.some (r, s)) (Option.some (r, { s with w := v })) := .inr ⟨r, s, v, rfl, rfl, h⟩

theorem goStep_rel {O m0 v} {s : SS} (h : Priv O m0 s.w v) (t : Nat) (ch : Choice) :
    RelE O (SameS O m0) (goStep s t ch) (goStep { s with w := v } t ch) := by
  unfold goStep
  dsimp only
  split
  · exact .pure (.inl ⟨rfl, rfl⟩)
  · split
    · exact .pure (.some h)
    · exact .pure (.inl ⟨rfl, rfl⟩)
  · exact (RelM.loadRelaxed _ _ _).andThen h fun _ _ _ hp => .pure (.some hp)
  · refine (RelM.loadEnd _).andThen h fun _ _ _ hp => (RelM.tryBump _ _ _).andThen hp fun b _ _ hp => ?_
    cases b with
    | none => exact .pure (.some hp)
    | some b =>
      refine (RelM.loadCursor _).andThen hp fun _ _ _ hp => ?_
      dsimp only
      split
      · refine (RelM.storeWord _ _).andThen hp fun _ _ _ hp => (RelM.subU _ _).andThen hp fun _ _ _ hp =>
          (RelM.dassert _ _).andThen hp fun _ _ _ hp => (RelM.dassert _ _).andThen hp fun _ _ _ hp =>
          (RelM.gotBlock _ _ _).andThen hp fun _ _ _ hp => .pure (.some hp)
      · exact (RelM.loadRelaxed _ _ _).andThen hp fun _ _ _ hp => .pure (.some hp)
  · refine (RelM.addU _ _).andThen h fun _ _ _ hp => (RelM.loadRelaxed _ _ _).andThen hp fun _ _ _ hp => ?_
    dsimp only
    split <;> exact .pure (.some hp)
  · split
    · exact .pure (.some h)
    · refine (RelM.loadEnd _).andThen h fun _ _ _ hp => ?_
      dsimp only
      split
      · exact .pure (.some hp)
      · refine (RelM.cellCas _ _ _).andThen hp fun ok _ _ hp => ?_
        cases ok with
        | true => exact (RelM.subU _ _).andThen hp fun _ _ _ hp => (RelM.dassert _ _).andThen hp fun _ _ _ hp => .pure (.some hp)
        | false => exact .pure (.some hp)
  · exact (RelM.addU _ _).andThen h fun _ _ _ hp => (RelM.cellCas _ _ _).andThen hp fun ok _ _ hp => .pure (.some hp)
  · exact .pure (.some h)
  · split
    · exact .pure (.some h)
    · exact .pure (.inl ⟨rfl, rfl⟩)
  · refine (RelM.allocSlow _ _ _).andThen h fun ⟨r, root⟩ _ _ hp => ?_
    cases r with
    | none => exact .pure (.some hp)
    | some b => exact (RelM.gotBlock _ _ _).andThen hp fun _ _ _ hp => .pure (.some hp)
  · split
    · exact (RelM.copyByte _ _).andThen h fun _ _ _ hp => .pure (.some hp)
    · exact .pure (.some h)
  · split <;> exact .pure (.some h)

theorem sstep_rel {O m0 v} {s : SS} (h : Priv O m0 s.w v) {a : Act} (hw : ∀ x b, a = .write x b → v.accessible x 1 = true) :
    RelE O (SameS O m0) (sstep s a) (sstep { s with w := v } a) := by
  have hr : ∀ k, RelE O (SameS O m0) (resetStep s k) (resetStep { s with w := v } k) := by
    intro k
    exact (RelM.arenaReset _ _).andThen h fun _ _ _ hp => .pure (.some hp)
  cases a with
  | call t c =>
    simp only [sstep]
    split
    · exact .pure (.some h)
    · exact .pure (.inl ⟨rfl, rfl⟩)
  | go t ch => exact goStep_rel h t ch
  | write x b => exact .pure (.inr ⟨_, _, _, rfl, rfl, h.set (.inr (hw x b rfl)) fun _ _ => rfl⟩)
  | reset => exact hr true
  | resetUnchecked =>
    simp only [sstep]
    split
    · exact hr true
    · exact .pure (.inl ⟨rfl, rfl⟩)
  | resetFinal => exact hr false

/-! ### Proxies -/

theorem RelM.chunkRequest (root m : Nat) (l : Layout) : RelM (Blink.chunkRequest root m l) := by
  unfold Blink.chunkRequest; relm

/-- The same outcome, up to the blocks of others. -/
def SameP (O : List BaseBlk) (m0 : Nat → Byte) (p q : Option (Option Resp × PS)) : Prop :=
  (p = none ∧ q = none) ∨ ∃ r ps v, p = some (r, ps) ∧ q = some (r, { ps with s := { ps.s with w := v } }) ∧ Priv O m0 ps.s.w v

theorem SameP.some {O m0} {r : Option Resp} {ps : PS} {v : World} (h : Priv O m0 ps.s.w v) :
    SameP O m0 (Option.some (r, ps)) (Option.some (r, { ps with s := { ps.s with w := v } })) := .inr ⟨r, ps, v, rfl, rfl, h⟩

theorem PS.answer_rel {O m0 w v} {ps : PS} {u1 u2 : World} (h : Priv O m0 w v) (i : Nat) (a : BA) (r : Resp) :
    RelE O (SameP O m0) (PS.answer { ps with s := { ps.s with w := u1 } } i a w r)
      (PS.answer { ps with s := { ps.s with w := u2 } } i a v r) := by
  unfold PS.answer; exact .pure (.inr ⟨_, _, _, rfl, rfl, h⟩)

theorem PS.ask_rel {O m0 w v} {ps : PS} {u1 u2 : World} (h : Priv O m0 w v) (i : Nat) (a : BA) (c : Call) (pc : PPc) :
    RelE O (SameP O m0) (PS.ask { ps with s := { ps.s with w := u1 } } i a w c pc)
      (PS.ask { ps with s := { ps.s with w := u2 } } i a v c pc) := by
  unfold PS.ask
  dsimp only
  split
  · exact .pure (.inr ⟨_, _, _, rfl, rfl, h⟩)
  · exact .pure (.inl ⟨rfl, rfl⟩)

theorem PS.freeNext_rel {O m0 w v} {ps : PS} {u1 u2 : World} (h : Priv O m0 w v) (i : Nat) (a : BA) (c : Nat) :
    RelE O (SameP O m0) (PS.freeNext { ps with s := { ps.s with w := u1 } } i a c w)
      (PS.freeNext { ps with s := { ps.s with w := u2 } } i a c v) := by
  unfold PS.freeNext
  split
  · exact PS.answer_rel h _ _ _
  · exact (RelM.loadPrev _).andThen h fun _ _ _ hp => (RelM.loadEnd _).andThen hp fun _ _ _ hp =>
      (RelM.subU _ _).andThen hp fun _ _ _ hp => PS.ask_rel hp _ _ _ _

theorem RelE.bind_eq {α β : Type} {O : List BaseBlk} {P : α → α → Prop} {Q : β → β → Prop} {a b : Except Fault α} {k k' : α → Except Fault β}
    (h : RelE O P a b) (hk : ∀ z z', b = .ok z' → P z z' → RelE O Q (k z) (k' z')) : RelE O Q (a >>= k) (b >>= k') := by
  have h1 : RelE O (fun z z' => b = .ok z' ∧ P z z') a b := by
    refine ⟨fun z' hb => ?_, h.2⟩
    rcases h.1 z' hb with ⟨z, ha, hz⟩ | he
    · exact .inl ⟨z, ha, hb, hz⟩
    · exact .inr he
  exact h1.bind fun z z' ⟨hb, hz⟩ => hk z z' hb hz

theorem newChunkAlloc_rel {O m0 w v} (h : Priv O m0 w v) (root : Nat) {sl : Slice} (hs : sl.len = 0 ∨ v.accessible sl.addr sl.len = true)
    (l : Layout) : RelE O (fun p q => p.1 = q.1 ∧ Priv O m0 p.2 q.2) (newChunkAlloc root sl l w) (newChunkAlloc root sl l v) := by
  have hm : ∀ u : World, newChunkAlloc root sl l u = (do
      let c ← initChunk sl root
      match ← chunkAlloc c l with
      | none => ub "unwrap_unchecked on None"
      | some s => pure s : M Slice) { u with mem := setBytes u.mem sl.addr sl.len (fun _ => .uninit) } := fun u => rfl
  rw [hm, hm]
  have h1 := h.set hs (f := fun _ => .uninit) (g := fun _ => .uninit) fun _ _ => rfl
  refine RelM.rel ?_ h1
  relm

/-- The proxy waits for a block. -/
def PPc.Waits (pc : PPc) : Prop := (∃ l, pc = .alloc l) ∨ ∃ p old new, pc = .resize p old new

theorem PS.resume_rel {O m0 v} {ps : PS} (h : Priv O m0 ps.s.w v) (i : Nat) (a : BA) (r : Resp) (pc : PPc)
    (hs : ∀ sl, r = .block sl → pc.Waits → sl.len = 0 ∨ v.accessible sl.addr sl.len = true) :
    RelE O (SameP O m0) (ps.resume i a r pc) (PS.resume { ps with s := { ps.s with w := v } } i a r pc) := by
  cases pc with
  | idle => exact .pure (.inl ⟨rfl, rfl⟩)
  | alloc l =>
    cases r with
    | block sl =>
      exact (newChunkAlloc_rel h _ (hs sl rfl (.inl ⟨_, rfl⟩)) _).bind fun ⟨_, _⟩ ⟨_, _⟩ ⟨e, hp⟩ => by
        cases e; exact PS.answer_rel hp _ _ _
    | err => exact PS.answer_rel h _ _ _
    | unit => exact PS.answer_rel h _ _ _
  | resize p old new =>
    cases r with
    | block sl =>
      exact (newChunkAlloc_rel h _ (hs sl rfl (.inr ⟨_, _, _, rfl⟩)) _).bind fun ⟨_, _⟩ ⟨_, _⟩ ⟨e, hp⟩ => by
        cases e
        exact (RelM.copyNonoverlapping _ _ _).andThen hp fun _ _ _ hp => PS.answer_rel hp _ _ _
    | err => exact PS.answer_rel h _ _ _
    | unit => exact PS.answer_rel h _ _ _
  | chain next => exact PS.freeNext_rel h _ _ _

theorem shared_rel {O m0 v} {ps : PS} (h : Priv O m0 ps.s.w v) {a : Act} (hw : ∀ x b, a = .write x b → v.accessible x 1 = true)
    {k k' : Option (Option Resp × SS) → PRes}
    (hk : k = fun x => match x with | none => pure none | some (r, s') => pure (some (r, { ps with s := s' })))
    (hk' : k' = fun x => match x with | none => pure none | some (r, s') => pure (some (r, { ps with s := s' }))) :
    RelE O (SameP O m0) (sstep ps.s a >>= k) (sstep { ps.s with w := v } a >>= k') := by
  subst hk hk'
  refine (sstep_rel h hw).bind fun z z' hz => ?_
  rcases hz with ⟨rfl, rfl⟩ | ⟨r, s1, v1, rfl, rfl, hp⟩
  · exact .pure (.inl ⟨rfl, rfl⟩)
  · exact .pure (.inr ⟨_, _, _, rfl, rfl, hp⟩)

theorem pstep_rel {O m0 v} {ps : PS} (h : Priv O m0 ps.s.w v) {a : PAct} (hw : ∀ x b, a = .shared (.write x b) → v.accessible x 1 = true)
    (hgo : ∀ t ch p, a = .shared (.go t ch) → ps.px t = some p → p.pc.Waits → ∀ sl s',
      sstep { ps.s with w := v } (.go t ch) = .ok (some (some (.block sl), s')) → sl.len = 0 ∨ s'.w.accessible sl.addr sl.len = true) :
    RelE O (SameP O m0) (pstep ps a) (pstep { ps with s := { ps.s with w := v } } a) := by
  cases a with
  | shared a =>
    cases a with
    | go t ch =>
      refine (sstep_rel h fun _ _ he => by cases he).bind_eq fun z z' he hz => ?_
      rcases hz with ⟨rfl, rfl⟩ | ⟨r, s1, v1, rfl, rfl, hp⟩
      · exact .pure (.inl ⟨rfl, rfl⟩)
      · cases r with
        | none => exact .pure (.inr ⟨_, _, _, rfl, rfl, hp⟩)
        | some r =>
          dsimp only
          cases hpx : ps.px t with
          | none => exact .pure (.inr ⟨_, _, _, rfl, rfl, hp⟩)
          | some p =>
            dsimp only
            by_cases hi : p.pc = .idle
            · rw [if_pos hi, if_pos hi]; exact .pure (.inr ⟨_, _, _, rfl, rfl, hp⟩)
            · rw [if_neg hi, if_neg hi]
              exact PS.resume_rel (ps := { ps with s := s1 }) hp t p.a r p.pc fun sl hr hwt => hgo t ch p rfl hpx hwt sl _ (by rw [he, hr])
    | call t c => exact shared_rel h (fun _ _ he => by cases he) rfl rfl
    | write x b => exact shared_rel h (fun x b he => hw x b (by rw [he])) rfl rfl
    | reset => exact shared_rel h (fun _ _ he => by cases he) rfl rfl
    | resetUnchecked => exact shared_rel h (fun _ _ he => by cases he) rfl rfl
    | resetFinal => exact shared_rel h (fun _ _ he => by cases he) rfl rfl
  | spawn i k =>
    simp only [pstep]
    split
    · exact .pure (.inl ⟨rfl, rfl⟩)
    · split
      · exact .pure (.inr ⟨_, _, _, rfl, rfl, h⟩)
      · exact .pure (.inl ⟨rfl, rfl⟩)
  | allocate i l =>
    simp only [pstep]
    split
    · refine (RelM.allocFast _ _).andThen h fun r _ _ hp => ?_
      cases r with
      | some b => exact PS.answer_rel hp _ _ _
      | none =>
        refine (RelM.chunkRequest _ _ _).andThen hp fun q _ _ hp => ?_
        cases q with
        | none => exact PS.answer_rel hp _ _ _
        | some size => exact PS.ask_rel hp _ _ _ _
    · exact .pure (.inl ⟨rfl, rfl⟩)
  | resize i p old new =>
    simp only [pstep]
    split
    · refine (RelM.resizeFast _ _ _ _).andThen h fun r _ _ hp => ?_
      cases r with
      | some b => exact PS.answer_rel hp _ _ _
      | none =>
        refine (RelM.chunkRequest _ _ _).andThen hp fun q _ _ hp => ?_
        cases q with
        | none => exact PS.answer_rel hp _ _ _
        | some size => exact PS.ask_rel hp _ _ _ _
    · exact .pure (.inl ⟨rfl, rfl⟩)
  | deallocate i p n =>
    simp only [pstep]
    split
    · exact (RelM.deallocate _ _ _).andThen h fun _ _ _ hp => PS.answer_rel hp _ _ _
    · exact .pure (.inl ⟨rfl, rfl⟩)
  | reset i =>
    simp only [pstep]
    split
    · refine (RelM.lastChunkSize _).andThen h fun _ _ _ hp => (RelM.arenaResetLeak _ _).andThen hp fun _ _ _ hp =>
        .pure (.inr ⟨_, _, _, rfl, rfl, hp⟩)
    · exact .pure (.inl ⟨rfl, rfl⟩)
  | resetUnchecked i =>
    simp only [pstep]
    split
    · split
      · exact PS.answer_rel h _ _ _
      · exact (RelM.chunkReset _).andThen h fun _ _ _ hp => PS.freeNext_rel hp _ _ _
    · exact .pure (.inl ⟨rfl, rfl⟩)
  | drop i =>
    simp only [pstep]
    split
    · refine (RelM.lastChunkSize _).andThen h fun _ _ _ hp => (RelM.arenaResetLeak _ _).andThen hp fun _ _ _ hp =>
        (RelM.dassert _ _).andThen hp fun _ _ _ hp => .pure (.inr ⟨_, _, _, rfl, rfl, hp⟩)
    · exact .pure (.inl ⟨rfl, rfl⟩)
  | updateMax t x => exact .pure (.inr ⟨_, _, _, rfl, rfl, h⟩)
  | sync t u => exact .pure (.inr ⟨_, _, _, rfl, rfl, h⟩)

end Blink
