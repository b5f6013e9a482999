/-!
Byte strings, little/big-endian integers and bounds-checked memory.

Shared by every model that touches buffers.  `load`/`store` return `none` when the C++ code would read or
write outside the buffer (undefined behaviour), so an out-of-range access is a visible outcome.
-/

namespace Kunlun

abbrev Bytes := List UInt8

/-- `n` little-endian bytes of `v` (x86 memory image of an `n`-byte unsigned integer). -/
def leBytes : Nat → Nat → Bytes
  | 0, _ => []
  | n + 1, v => UInt8.ofNat v :: leBytes n (v / 256)

/-- Value of a little-endian byte string. -/
def ofLE : Bytes → Nat
  | [] => 0
  | b :: bs => b.toNat + 256 * ofLE bs

/-- `n` big-endian bytes of `v` (the format of OpenSSL `BN_bn2binpad`). -/
def beBytes (n v : Nat) : Bytes := (leBytes n v).reverse

/-- Value of a big-endian byte string (the format of OpenSSL `BN_bin2bn`). -/
def ofBE (b : Bytes) : Nat := ofLE b.reverse

@[simp] theorem leBytes_length (n v : Nat) : (leBytes n v).length = n := by
  induction n generalizing v with
  | zero => rfl
  | succ n ih => simp [leBytes, ih]

@[simp] theorem beBytes_length (n v : Nat) : (beBytes n v).length = n := by
  simp [beBytes]

theorem ofLE_leBytes (n v : Nat) (h : v < 256 ^ n) : ofLE (leBytes n v) = v := by
  induction n generalizing v with
  | zero => simp at h; simp [leBytes, ofLE, h]
  | succ n ih =>
    have h1 : v / 256 < 256 ^ n := by
      rw [Nat.pow_succ] at h
      exact Nat.div_lt_of_lt_mul (by omega)
    simp [leBytes, ofLE, ih _ h1]
    omega

theorem ofLE_leBytes_mod (n v : Nat) : ofLE (leBytes n v) = v % 256 ^ n := by
  induction n generalizing v with
  | zero => simp [leBytes, ofLE, Nat.mod_one]
  | succ n ih =>
    simp [leBytes, ofLE, ih]
    rw [Nat.pow_succ, Nat.mul_comm (256 ^ n), Nat.mod_mul]

theorem ofBE_beBytes (n v : Nat) (h : v < 256 ^ n) : ofBE (beBytes n v) = v := by
  simp [ofBE, beBytes, ofLE_leBytes n v h]

theorem ofLE_lt (b : Bytes) : ofLE b < 256 ^ b.length := by
  induction b with
  | nil => simp [ofLE]
  | cons x xs ih =>
    simp [ofLE, Nat.pow_succ]
    have := x.toNat_lt
    omega

theorem leBytes_ofLE (b : Bytes) : leBytes b.length (ofLE b) = b := by
  induction b with
  | nil => rfl
  | cons x xs ih =>
    have hx := x.toNat_lt
    simp only [ofLE, List.length_cons, leBytes]
    have h1 : (x.toNat + 256 * ofLE xs) / 256 = ofLE xs := by omega
    rw [h1, ih]
    congr 1
    apply UInt8.toNat_inj.mp
    simp

theorem leBytes_inj {n v w : Nat} (hv : v < 256 ^ n) (hw : w < 256 ^ n)
    (h : leBytes n v = leBytes n w) : v = w := by
  rw [← ofLE_leBytes n v hv, ← ofLE_leBytes n w hw, h]

theorem beBytes_inj {n v w : Nat} (hv : v < 256 ^ n) (hw : w < 256 ^ n)
    (h : beBytes n v = beBytes n w) : v = w := by
  rw [← ofBE_beBytes n v hv, ← ofBE_beBytes n w hw, h]

/-- Bounds-checked read of `n` bytes at `off` (memcpy out of / reinterpret load from a buffer). -/
def load (m : Bytes) (off n : Nat) : Option Bytes :=
  if off + n ≤ m.length then some ((m.drop off).take n) else none

/-- Bounds-checked write of the bytes `b` at `off` (memcpy into a buffer). -/
def store (m : Bytes) (off : Nat) (b : Bytes) : Option Bytes :=
  if off + b.length ≤ m.length then some (m.take off ++ b ++ m.drop (off + b.length)) else none

theorem load_eq_some {m : Bytes} {off n : Nat} (h : off + n ≤ m.length) :
    load m off n = some ((m.drop off).take n) := by simp [load, h]

theorem load_length {m : Bytes} {off n : Nat} {r : Bytes} (h : load m off n = some r) :
    r.length = n := by
  unfold load at h
  split at h
  · cases h; simp; omega
  · cases h

theorem store_length {m : Bytes} {off : Nat} {b r : Bytes} (h : store m off b = some r) :
    r.length = m.length := by
  unfold store at h
  split at h
  · cases h; simp; omega
  · cases h

theorem store_isSome {m : Bytes} {off : Nat} {b : Bytes} (h : off + b.length ≤ m.length) :
    ∃ r, store m off b = some r := by simp [store, h]

theorem store_bound {m : Bytes} {off : Nat} {b r : Bytes} (h : store m off b = some r) :
    off + b.length ≤ m.length := by
  unfold store at h
  split at h
  · assumption
  · cases h

theorem store_getElem? {m : Bytes} {off : Nat} {b r : Bytes} (h : store m off b = some r) (i : Nat) :
    r[i]? = if off ≤ i ∧ i < off + b.length then b[i - off]? else m[i]? := by
  have hb := store_bound h
  unfold store at h
  rw [if_pos hb] at h
  cases h
  by_cases h1 : i < off
  · rw [List.append_assoc, List.getElem?_append_left (by simp; omega)]
    rw [if_neg (by omega)]
    simp [h1]
  · by_cases h2 : i < off + b.length
    · rw [if_pos ⟨by omega, h2⟩, List.append_assoc, List.getElem?_append_right (by simp; omega)]
      rw [List.getElem?_append_left (by simp; omega)]
      congr 1
      simp; omega
    · rw [if_neg (by omega), List.getElem?_append_right (by simp; omega)]
      simp only [List.getElem?_drop]
      congr 1
      simp; omega

theorem load_getElem? {m : Bytes} {off n : Nat} {r : Bytes} (h : load m off n = some r) (i : Nat) :
    r[i]? = if i < n then m[off + i]? else none := by
  unfold load at h
  split at h
  · cases h
    simp [List.getElem?_take]
  · cases h

/-- Reading back exactly what was written. -/
theorem load_store_same {m : Bytes} {off : Nat} {b r : Bytes} (h : store m off b = some r) :
    load r off b.length = some b := by
  have hb := store_bound h
  have hl := store_length h
  rw [load_eq_some (by omega)]
  congr 1
  apply List.ext_getElem?
  intro i
  rw [List.getElem?_take]
  split
  · rw [List.getElem?_drop, store_getElem? h, if_pos (by omega)]
    congr 1; omega
  · rw [List.getElem?_eq_none (by omega)]

/-- A write does not disturb disjoint reads. -/
theorem load_store_disjoint {m : Bytes} {off : Nat} {b r : Bytes} (h : store m off b = some r)
    {off' n : Nat} (hd : off' + n ≤ off ∨ off + b.length ≤ off') :
    load r off' n = load m off' n := by
  have hl := store_length h
  unfold load
  rw [hl]
  split
  · congr 1
    apply List.ext_getElem?
    intro i
    rw [List.getElem?_take, List.getElem?_take]
    split
    · rw [List.getElem?_drop, List.getElem?_drop, store_getElem? h, if_neg (by omega)]
    · rfl
  · rfl

end Kunlun
