import Verif.Model.Base
/-
  Alignment arithmetic (src/arena/mod.rs:21-47, 162-169) on 64-bit words.
-/
namespace Blink

/-- `&` on `usize` (src/arena/mod.rs:25, 32, 39): modelled by `BitVec 64`. -/
def andU (a b : Nat) : Nat := (BitVec.ofNat 64 a &&& BitVec.ofNat 64 b).toNat
/-- `!mask` on `usize` (src/arena/mod.rs:32, 39): modelled by `BitVec 64`. -/
def notU (a : Nat) : Nat := (~~~ BitVec.ofNat 64 a).toNat

/-- src/arena/mod.rs:22-26 `is_aligned_to`. The `debug_assert!(align.is_power_of_two())` here and in the next two functions (lines 23, 30,
37) is not checked: the alignments passed are constants and those of valid layouts. -/
def isAlignedTo (value align : Nat) : Bool :=
  let mask := align - 1
  andU value mask == 0

/-- src/arena/mod.rs:29-33 `align_up`. -/
def alignUp (value align : Nat) : Option Nat :=
  let mask := align - 1
  match checkedAdd value mask with
  | none => none
  | some s => some (andU s (notU mask))

/-- src/arena/mod.rs:36-40 `align_down`. -/
def alignDown (value align : Nat) : Nat :=
  let mask := align - 1
  andU value (notU mask)

/-- src/arena/mod.rs:44-47 `layout_sum`. -/
def layoutSum (l : Layout) : M Nat := do
  let mask ← subU l.align 1
  addU l.size mask

/-- Doubling loop for `nextPow2` (`usize::next_power_of_two` is library code, called at src/arena/mod.rs:485): at most `fuel` doublings of `p` until it reaches `n`. -/
def nextPow2From : (fuel p n : Nat) → Nat
  | 0, p, _ => p
  | fuel + 1, p, n => if n ≤ p then p else nextPow2From fuel (2 * p) n

/-- `usize::next_power_of_two` (used at src/arena/mod.rs:485): the least power of two that is at least `n`
(proved in `nextPow2_spec`). -/
def nextPow2 (n : Nat) : Nat := nextPow2From 64 1 n

/-- src/arena/mod.rs:163. -/
def CHUNK_START_SIZE : Nat := 256
/-- src/arena/mod.rs:166 (`1 << 14`). -/
def CHUNK_POWER_OF_TWO_THRESHOLD : Nat := 16384
/-- src/arena/mod.rs:169. -/
def CHUNK_MIN_GROW_STEP : Nat := 64

/-- `size_of::<ChunkHeader>()` on the 64-bit target: four machine words (src/arena/mod.rs:173-179, `repr(C)`). -/
def HDR_SIZE : Nat := 32
/-- `align_of::<ChunkHeader>()` (src/arena/mod.rs:173-179). -/
def HDR_ALIGN : Nat := 8

end Blink
