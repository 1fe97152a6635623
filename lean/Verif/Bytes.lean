import Verif.Bits

/-!
# Bytes: little-endian integers, results, exact reads

Rust standard library pieces used all over the code.
-/

namespace Ebi

/-- Outcome of a Rust call: `Ok`, `Err`, or a panic. -/
inductive Res (α : Type) where
  | ok (a : α)
  | err
  | panic
deriving DecidableEq, Repr

namespace Res

/-- The `?` operator. -/
def bind {α β : Type} : Res α → (α → Res β) → Res β
  | .ok a, f => f a
  | .err, _ => .err
  | .panic, _ => .panic

def map {α β : Type} (f : α → β) : Res α → Res β
  | .ok a => .ok (f a)
  | .err => .err
  | .panic => .panic

instance : Monad Res where
  pure := .ok
  bind := Res.bind

@[simp] theorem bind_ok {α β : Type} (a : α) (f : α → Res β) : (Res.ok a >>= f) = f a := rfl
@[simp] theorem bind_err {α β : Type} (f : α → Res β) : ((Res.err : Res α) >>= f) = .err := rfl
@[simp] theorem bind_panic {α β : Type} (f : α → Res β) : ((Res.panic : Res α) >>= f) = .panic := rfl
@[simp] theorem pure_eq {α : Type} (a : α) : (pure a : Res α) = .ok a := rfl

theorem bind_eq_ok {α β : Type} {x : Res α} {f : α → Res β} {b : β} (h : (x >>= f) = .ok b) :
    ∃ a, x = .ok a ∧ f a = .ok b := by
  cases x with
  | ok a => exact ⟨a, rfl, h⟩
  | err => cases h
  | panic => cases h

end Res

/-- `uN::to_le_bytes` for an `n`-byte integer (std). -/
def leBytes : Nat → Nat → List Byte
  | 0, _ => []
  | n + 1, x => BitVec.ofNat 8 x :: leBytes n (x / 256)

/-- `uN::from_le_bytes` (std). -/
def leNat : List Byte → Nat
  | [] => 0
  | b :: bs => b.toNat + 256 * leNat bs

@[simp] theorem leBytes_length (n x : Nat) : (leBytes n x).length = n := by
  induction n generalizing x with
  | zero => rfl
  | succ n ih => simp [leBytes, ih]

theorem leNat_leBytes (n x : Nat) : leNat (leBytes n x) = x % 256 ^ n := by
  induction n generalizing x with
  | zero => simp [leBytes, leNat, Nat.mod_one]
  | succ n ih =>
    rw [leBytes, leNat, ih, Nat.pow_succ, Nat.mul_comm (256 ^ n) 256, Nat.mod_mul]
    simp

theorem leNat_lt (bs : List Byte) : leNat bs < 256 ^ bs.length := by
  induction bs with
  | nil => simp [leNat]
  | cons b bs ih =>
    have := b.isLt
    simp only [leNat, List.length_cons, Nat.pow_succ]
    omega

theorem leBytes_leNat (bs : List Byte) : leBytes bs.length (leNat bs) = bs := by
  induction bs with
  | nil => rfl
  | cons b bs ih =>
    have hb := b.isLt
    simp only [List.length_cons, leBytes, leNat]
    have h1 : (b.toNat + 256 * leNat bs) / 256 = leNat bs := by omega
    rw [h1, ih]
    congr 1
    apply BitVec.eq_of_toNat_eq
    simp only [BitVec.toNat_ofNat]
    omega

/-- `f64::to_le_bytes` (std). -/
def f64Bytes (v : B64) : List Byte := leBytes 8 v.toNat

/-- `f64::from_le_bytes` (std). -/
def f64Of (bs : List Byte) : B64 := BitVec.ofNat 64 (leNat bs)

@[simp] theorem f64Bytes_length (v : B64) : (f64Bytes v).length = 8 := leBytes_length _ _

@[simp] theorem f64Of_bytes (v : B64) : f64Of (f64Bytes v) = v := by
  unfold f64Of f64Bytes
  rw [leNat_leBytes]
  apply BitVec.eq_of_toNat_eq
  have := v.isLt
  simp only [BitVec.toNat_ofNat]
  omega

theorem f64Bytes_of {bs : List Byte} (h : bs.length = 8) : f64Bytes (f64Of bs) = bs := by
  have h1 := leNat_lt bs
  unfold f64Of f64Bytes
  rw [BitVec.toNat_ofNat, Nat.mod_eq_of_lt (by rw [h] at h1; simpa using h1)]
  have h2 := leBytes_leNat bs
  rwa [h] at h2

/-- `Read::read_exact` of `n` bytes from a cursor over memory (std): `none` is `UnexpectedEof`. -/
def takeExact (n : Nat) (bs : List Byte) : Option (List Byte × List Byte) :=
  if n ≤ bs.length then some (bs.take n, bs.drop n) else none

theorem takeExact_append (a b : List Byte) : takeExact a.length (a ++ b) = some (a, b) := by
  simp [takeExact]

theorem takeExact_append' {n : Nat} (a b : List Byte) (h : a.length = n) :
    takeExact n (a ++ b) = some (a, b) := by
  subst h; exact takeExact_append a b

/-- Reading a whole buffer as doubles, 8 bytes each, dropping a partial tail
(`bytes.chunks_exact(8).map(f64::from_le_bytes)`, and what `&[u8]` viewed as `&[f64]` of
`len / 8` elements denotes on a little-endian machine). -/
def toF64s : List Byte → List B64
  | a :: b :: c :: d :: e :: f :: g :: h :: rest => f64Of [a, b, c, d, e, f, g, h] :: toF64s rest
  | _ => []

/-- The bytes of a slice of doubles in memory (little endian). -/
def ofF64s (vs : List B64) : List Byte := vs.flatMap f64Bytes

@[simp] theorem ofF64s_nil : ofF64s [] = [] := rfl
@[simp] theorem ofF64s_cons (v : B64) (vs : List B64) : ofF64s (v :: vs) = f64Bytes v ++ ofF64s vs := rfl
@[simp] theorem ofF64s_append (us vs : List B64) : ofF64s (us ++ vs) = ofF64s us ++ ofF64s vs := by
  simp [ofF64s]

@[simp] theorem ofF64s_length (vs : List B64) : (ofF64s vs).length = 8 * vs.length := by
  induction vs with
  | nil => rfl
  | cons v vs ih => simp [ih]; omega

theorem toF64s_append {a : List Byte} (h : a.length = 8) (rest : List Byte) :
    toF64s (a ++ rest) = f64Of a :: toF64s rest := by
  match a, h with
  | [a, b, c, d, e, f, g, i], _ => rfl

theorem toF64s_short {a : List Byte} (h : a.length < 8) : toF64s a = [] := by
  match a, h with
  | [], _ => rfl
  | [_], _ => rfl
  | [_, _], _ => rfl
  | [_, _, _], _ => rfl
  | [_, _, _, _], _ => rfl
  | [_, _, _, _, _], _ => rfl
  | [_, _, _, _, _, _], _ => rfl
  | [_, _, _, _, _, _, _], _ => rfl

theorem toF64s_ofF64s_append (vs : List B64) {t : List Byte} (h : t.length < 8) :
    toF64s (ofF64s vs ++ t) = vs := by
  induction vs with
  | nil => simp [toF64s_short h]
  | cons v vs ih =>
    rw [ofF64s_cons, List.append_assoc, toF64s_append (f64Bytes_length v), ih, f64Of_bytes]

@[simp] theorem toF64s_ofF64s (vs : List B64) : toF64s (ofF64s vs) = vs := by
  have := toF64s_ofF64s_append vs (t := []) (by simp)
  simpa using this

end Ebi
