import Verif.Spec.Blink
import Verif.Spec.Global
import Verif.Spec.GlobalSync
import Verif.Spec.Proxy
import Verif.Spec.GlobalProxy
/-
  C58: every constructor gives a state that the other theorems start from. The hypotheses are about the world only: blocks held
  by others are apart and below `top`, and in debug builds addresses stay below 2^62.
-/
namespace Blink

/-- C58: `BlinkAlloc::new`, `new_in`, `default`. -/
theorem C58_local_new {w : World} (hw : HeldOK w) (hl : w.log = []) (hd : w.debug = true → w.top ≤ 4611686018427387904) :
    Start ⟨w, BA.new⟩ :=
  ⟨rfl, hw, fun h => ⟨(by decide : 0 < CHUNK_START_SIZE), (by decide : CHUNK_START_SIZE ≤ 4611686018427387904), hd h⟩, hl⟩

/-- C58: `BlinkAlloc::with_chunk_size`, `with_chunk_size_in`. -/
theorem C58_local_with_chunk_size {w : World} {n : Nat} (hw : HeldOK w) (hl : w.log = []) (hd : DbgOK w n) :
    Start ⟨w, BA.withChunkSize n⟩ :=
  ⟨rfl, hw, hd, hl⟩

/-- C58: `SyncBlinkAlloc::new`, `new_in`, `default`. -/
theorem C58_sync_new {w : World} (hw : HeldOK w) (hl : w.log = []) (hd : w.debug = true → w.top ≤ 4611686018427387904) :
    SStart (SS.new w) :=
  ⟨rfl, rfl, rfl, rfl, fun _ => rfl, hw, fun h => ⟨(by decide : 0 < CHUNK_START_SIZE), (by decide : CHUNK_START_SIZE ≤ 4611686018427387904), hd h⟩, hl⟩

/-- C58: `SyncBlinkAlloc::with_chunk_size`, `with_chunk_size_in`. -/
theorem C58_sync_with_chunk_size {w : World} {n : Nat} (hw : HeldOK w) (hl : w.log = []) (hd : DbgOK w n) :
    SStart (SS.withChunkSize n w) :=
  ⟨rfl, rfl, rfl, rfl, fun _ => rfl, hw, hd, hl⟩

/-- C58: a `SyncBlinkAlloc` that proxies will be made of. -/
theorem C58_proxies {w : World} {n : Nat} (hw : HeldOK w) (hl : w.log = []) (hd : DbgOK w n) (ht : w.top ≤ HUGE) :
    PStart (PS.withChunkSize n w) :=
  ⟨C58_sync_with_chunk_size hw hl hd, ht, rfl, fun _ => rfl, fun _ => rfl⟩

/-- C58: `UnsafeGlobalBlinkAlloc::new`, `new_in`. -/
theorem C58_global_new {w : World} (hw : HeldOK w) (hl : w.log = []) (hd : w.debug = true → w.top ≤ 4611686018427387904) :
    GStart (GS.new w) :=
  ⟨rfl, rfl, C58_local_new hw hl hd, rfl⟩

/-- C58: `UnsafeGlobalBlinkAlloc::with_chunk_size`, `with_chunk_size_in`. -/
theorem C58_global_with_chunk_size {w : World} {n : Nat} (hw : HeldOK w) (hl : w.log = []) (hd : DbgOK w n) :
    GStart (GS.withChunkSize n w) :=
  ⟨rfl, rfl, C58_local_with_chunk_size hw hl hd, rfl⟩

/-- C58: `GlobalBlinkAlloc::new`, `new_in`. -/
theorem C58_global_sync_new {w : World} (hw : HeldOK w) (hl : w.log = []) (hd : w.debug = true → w.top ≤ 4611686018427387904) :
    GSStart (GSS.new w) :=
  ⟨rfl, rfl, C58_sync_new hw hl hd, rfl, fun _ => rfl⟩

/-- C58: `GlobalBlinkAlloc::with_chunk_size`, `with_chunk_size_in`. -/
theorem C58_global_sync_with_chunk_size {w : World} {n : Nat} (hw : HeldOK w) (hl : w.log = []) (hd : DbgOK w n) :
    GSStart (GSS.withChunkSize n w) :=
  ⟨rfl, rfl, C58_sync_with_chunk_size hw hl hd, rfl, fun _ => rfl⟩

/-- C58: a `GlobalBlinkAlloc` that proxies will be made of. -/
theorem C58_global_proxies {w : World} {n : Nat} (hw : HeldOK w) (hl : w.log = []) (hd : DbgOK w n) (ht : w.top ≤ HUGE) :
    GPStart (GPS.withChunkSize n w) :=
  ⟨C58_global_sync_with_chunk_size hw hl hd, ht, rfl, fun _ => rfl, fun _ => rfl⟩

/-- C58: `Blink::new`, `new_in` and friends, over a fresh allocator. -/
theorem C58_blink {w : World} {a : BA} {kind : AKind} {types : Nat → RTy} {dtors : Nat → Dtor} (h : Start ⟨w, a⟩)
    (hk : kind = .owned ∨ kind = .refMut ∨ kind = .shared) (ht : ∀ r, (types r).OK) : BStart (BState.new w a kind types dtors) :=
  ⟨fun _ => h, h.world, fun _ _ _ he => (by rw [show (BState.new w a kind types dtors).kind = kind from rfl] at he; subst he; simp at hk), ht,
    rfl, rfl, rfl, rfl, rfl⟩

/-- C58: `Blink::new_in` over any other allocator: all blocks in use belong to others. -/
theorem C58_blink_any {w : World} {a : BA} {exact keeps : Bool} {types : Nat → RTy} {dtors : Nat → Dtor} (h : HeldOK w)
    (ht : ∀ r, (types r).OK) : BStart (BState.new w a (.any exact keeps w.held) types dtors) :=
  ⟨(fun he => by cases he), h, (fun _ _ _ he => by injection he with _ _ he; exact he.symm), ht, rfl, rfl, rfl, rfl, rfl⟩

/-- Non-vacuity: a debug build with 2^62 addresses where somebody else holds a block. -/
example : ∃ w : World, HeldOK w ∧ w.log = [] ∧ w.debug = true ∧ w.top ≤ 4611686018427387904 ∧ w.held ≠ [] :=
  ⟨{ mem := fun _ => .uninit, held := [⟨4096, 64, ⟨64, 8⟩⟩], oracle := fun _ => none, calls := 0, log := [], debug := true,
     top := 4611686018427387904 }, ⟨by simp, by simp, by simp⟩, rfl, rfl, Nat.le_refl _, by simp⟩

end Blink
