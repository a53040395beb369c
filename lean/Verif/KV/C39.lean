import Verif.KV.C37

/-!
# C39: numeric increments saturate or wrap as requested
-/
set_option linter.unusedSimpArgs false
set_option linter.unusedSectionVars false

namespace Bonsai.KV
open Bonsai

variable {F : Type} [FloatOps F]

/-! ## Specification: the integers behind the numbers -/

/-- The integer types. -/
inductive Kind where
  | signed
  | unsigned
  deriving DecidableEq

/-- Smallest value of the type. -/
def Kind.lo : Kind → Int
  | .signed => -(2 ^ 63)
  | .unsigned => 0

/-- Largest value of the type. -/
def Kind.hi : Kind → Int
  | .signed => 2 ^ 63 - 1
  | .unsigned => 2 ^ 64 - 1

/-- The mathematical integer a number stands for, and its type; `none` for floats. -/
def Numeric.math : Numeric F → Option (Kind × Int)
  | .integer i => some (.signed, i.toInt)
  | .unsigned u => some (.unsigned, (u.toNat : Int))
  | .float _ => none

/-- The value of the type `k` nearest to `x`. -/
def Kind.clamp (k : Kind) (x : Int) : Int := max k.lo (min k.hi x)

/-- `r` is `x` wrapped into the type `k`. -/
def Kind.Wraps (k : Kind) (x r : Int) : Prop := k.lo ≤ r ∧ r ≤ k.hi ∧ (r - x) % 2 ^ 64 = 0

/-- Wrapping has one answer. -/
theorem wraps_unique {k : Kind} {x r s : Int} (h : k.Wraps x r) (g : k.Wraps x s) : r = s := by
  obtain ⟨h1, h2, h3⟩ := h
  obtain ⟨g1, g2, g3⟩ := g
  cases k <;> simp only [Kind.lo, Kind.hi] at * <;> omega

/-- A representable result is returned exactly. -/
theorem wraps_exact {k : Kind} {x r : Int} (h : k.Wraps x r) (lo : k.lo ≤ x) (hi : x ≤ k.hi) : r = x :=
  wraps_unique h ⟨lo, hi, by simp⟩

/-! ## Machine arithmetic -/

theorem bmod_cong (x : Int) : (x.bmod (2 ^ 64) - x) % 2 ^ 64 = 0 := by
  simp only [Int.bmod]
  split <;> omega

theorem i64_range (i : Int64) : -(2 ^ 63) ≤ i.toInt ∧ i.toInt ≤ 2 ^ 63 - 1 := by
  have h1 := i.le_toInt
  have h2 := i.toInt_lt
  constructor <;> omega

theorem u64_range (u : UInt64) : (u.toNat : Int) ≤ 2 ^ 64 - 1 := by
  have := u.toNat_lt
  omega

theorem toInt64_cong (u : UInt64) : (u.toInt64.toInt - u.toNat) % 2 ^ 64 = 0 := by
  have h : u.toInt64.toInt = (u.toNat : Int).bmod (2 ^ 64) := BitVec.toInt_eq_toNat_bmod _
  rw [h]
  exact bmod_cong _

theorem toUInt64_cong (i : Int64) : ((i.toUInt64.toNat : Int) - i.toInt) % 2 ^ 64 = 0 := by
  have h : i.toInt = (i.toUInt64.toNat : Int).bmod (2 ^ 64) := BitVec.toInt_eq_toNat_bmod _
  rw [h]
  have := bmod_cong (i.toUInt64.toNat : Int)
  omega

theorem i64_add_cong (a b : Int64) : ((a + b).toInt - (a.toInt + b.toInt)) % 2 ^ 64 = 0 := by
  rw [Int64.toInt_add]; exact bmod_cong _

theorem i64_sub_cong (a b : Int64) : ((a - b).toInt - (a.toInt - b.toInt)) % 2 ^ 64 = 0 := by
  rw [Int64.toInt_sub]; exact bmod_cong _

theorem u64_add_cong (a b : UInt64) : (((a + b).toNat : Int) - (a.toNat + b.toNat)) % 2 ^ 64 = 0 := by
  rw [UInt64.toNat_add]; omega

theorem u64_sub_cong (a b : UInt64) : (((a - b).toNat : Int) - (a.toNat - b.toNat)) % 2 ^ 64 = 0 := by
  have h1 := a.toNat_lt
  have h2 := b.toNat_lt
  rw [UInt64.toNat_sub]
  omega

theorem satI64_toInt (x : Int) : (satI64 x).toInt = Kind.clamp .signed x := by
  have hmin : Int64.minValue.toInt = -(2 ^ 63) := Int64.toInt_minValue
  have hmax : Int64.maxValue.toInt = 2 ^ 63 - 1 := Int64.toInt_maxValue
  simp only [satI64, Kind.clamp, Kind.lo, Kind.hi]
  split
  · rw [hmin] at *; omega
  · split
    · rw [hmin, hmax] at *; omega
    · rw [hmin, hmax] at *
      rw [Int64.toInt_ofInt_of_le (by omega) (by omega)]
      omega

theorem satU64_toNat (x : Int) : ((satU64 x).toNat : Int) = Kind.clamp .unsigned x := by
  simp only [satU64, Kind.clamp, Kind.lo, Kind.hi]
  split
  · simp; omega
  · split
    · have : (UInt64.ofNat (2 ^ 64 - 1)).toNat = 2 ^ 64 - 1 := by decide
      rw [this]; omega
    · have : (UInt64.ofNat x.toNat).toNat = x.toNat := UInt64.toNat_ofNat_of_lt' (by
        show x.toNat < 2 ^ 64
        omega)
      rw [this]
      omega

/-- The conversions without saturation are exact modulo 2^64. -/
theorem asI64_cong {n : Numeric F} {k : Kind} {x : Int} (h : n.math = some (k, x)) :
    ((n.asI64 false).toInt - x) % 2 ^ 64 = 0 := by
  cases n with
  | integer i => simp only [Numeric.math, Option.some.injEq, Prod.mk.injEq] at h; simp [Numeric.asI64, ← h.2]
  | unsigned u =>
    simp only [Numeric.math, Option.some.injEq, Prod.mk.injEq] at h
    rw [← h.2]
    exact toInt64_cong u
  | float f => cases h

theorem asU64_cong {n : Numeric F} {k : Kind} {x : Int} (h : n.math = some (k, x)) :
    (((n.asU64 false).toNat : Int) - x) % 2 ^ 64 = 0 := by
  cases n with
  | integer i =>
    simp only [Numeric.math, Option.some.injEq, Prod.mk.injEq] at h
    rw [← h.2]
    exact toUInt64_cong i
  | unsigned u =>
    simp only [Numeric.math, Option.some.injEq, Prod.mk.injEq] at h
    simp [Numeric.asU64, ← h.2]
  | float f => cases h

/-- The saturating conversions return the nearest value. -/
theorem asI64_clamp {n : Numeric F} {k : Kind} {x : Int} (h : n.math = some (k, x)) :
    (n.asI64 true).toInt = Kind.clamp .signed x := by
  cases n with
  | integer i =>
    simp only [Numeric.math, Option.some.injEq, Prod.mk.injEq] at h
    have := i64_range i
    simp only [Numeric.asI64, ← h.2, Kind.clamp, Kind.lo, Kind.hi]
    omega
  | unsigned u =>
    simp only [Numeric.math, Option.some.injEq, Prod.mk.injEq] at h
    simp only [Numeric.asI64, ← h.2, Kind.clamp, Kind.lo, Kind.hi, if_true]
    split
    · rename_i hlt
      rw [Int64.toInt_ofNat_of_lt hlt]
      omega
    · have hmax : Int64.maxValue.toInt = 2 ^ 63 - 1 := Int64.toInt_maxValue
      rw [hmax]; omega
  | float f => cases h

theorem asU64_clamp {n : Numeric F} {k : Kind} {x : Int} (h : n.math = some (k, x)) :
    ((n.asU64 true).toNat : Int) = Kind.clamp .unsigned x := by
  cases n with
  | integer i =>
    simp only [Numeric.math, Option.some.injEq, Prod.mk.injEq] at h
    have hr := i64_range i
    simp only [Numeric.asU64, ← h.2, Kind.clamp, Kind.lo, Kind.hi, if_true]
    split
    · rename_i hge
      have : (UInt64.ofNat i.toInt.toNat).toNat = i.toInt.toNat := UInt64.toNat_ofNat_of_lt' (by
        show i.toInt.toNat < 2 ^ 64
        omega)
      rw [this]; omega
    · simp; omega
  | unsigned u =>
    simp only [Numeric.math, Option.some.injEq, Prod.mk.injEq] at h
    have := u64_range u
    simp only [Numeric.asU64, ← h.2, Kind.clamp, Kind.lo, Kind.hi]
    omega
  | float f => cases h

/-! ## C39 -/

/-- **C39, wrapping.** For every stored integer and every integer amount, of the same or of different
types, incrementing without saturation yields a number of the amount's type that is the exact sum
wrapped into that type. -/
theorem C39_wrapping_increment {n a : Numeric F} {k l : Kind} {x y : Int} (hn : n.math = some (k, x))
    (ha : a.math = some (l, y)) :
    ∃ r, (increment n a false).math = some (l, r) ∧ l.Wraps (x + y) r := by
  cases a with
  | integer i =>
    simp only [Numeric.math, Option.some.injEq, Prod.mk.injEq] at ha
    obtain ⟨rfl, rfl⟩ := ha
    refine ⟨_, rfl, ?_⟩
    have h1 := asI64_cong hn
    have h2 := i64_add_cong (n.asI64 false) i
    have h3 := i64_range (n.asI64 false + i)
    refine ⟨h3.1, h3.2, ?_⟩
    simp only [Bool.false_eq_true, if_false]
    omega
  | unsigned u =>
    simp only [Numeric.math, Option.some.injEq, Prod.mk.injEq] at ha
    obtain ⟨rfl, rfl⟩ := ha
    refine ⟨_, rfl, ?_⟩
    have h1 := asU64_cong hn
    have h2 := u64_add_cong (n.asU64 false) u
    have h3 := u64_range (n.asU64 false + u)
    refine ⟨Int.natCast_nonneg _, h3, ?_⟩
    simp only [Bool.false_eq_true, if_false]
    omega
  | float f => cases ha

/-- **C39, wrapping.** The same for decrementing. -/
theorem C39_wrapping_decrement {n a : Numeric F} {k l : Kind} {x y : Int} (hn : n.math = some (k, x))
    (ha : a.math = some (l, y)) :
    ∃ r, (decrement n a false).math = some (l, r) ∧ l.Wraps (x - y) r := by
  cases a with
  | integer i =>
    simp only [Numeric.math, Option.some.injEq, Prod.mk.injEq] at ha
    obtain ⟨rfl, rfl⟩ := ha
    refine ⟨_, rfl, ?_⟩
    have h1 := asI64_cong hn
    have h2 := i64_sub_cong (n.asI64 false) i
    have h3 := i64_range (n.asI64 false - i)
    refine ⟨h3.1, h3.2, ?_⟩
    simp only [Bool.false_eq_true, if_false]
    omega
  | unsigned u =>
    simp only [Numeric.math, Option.some.injEq, Prod.mk.injEq] at ha
    obtain ⟨rfl, rfl⟩ := ha
    refine ⟨_, rfl, ?_⟩
    have h1 := asU64_cong hn
    have h2 := u64_sub_cong (n.asU64 false) u
    have h3 := u64_range (n.asU64 false - u)
    refine ⟨Int.natCast_nonneg _, h3, ?_⟩
    simp only [Bool.false_eq_true, if_false]
    omega
  | float f => cases ha

/-- **C39, saturating.** When the stored number is representable in the amount's type (always so when
the types agree), incrementing with saturation yields the exact sum, or the nearest value of the
amount's type.  The full property does not require representability: see
`C39_violated_saturating_mixed_types`. -/
theorem C39_saturating_increment_partial {n a : Numeric F} {k l : Kind} {x y : Int}
    (hn : n.math = some (k, x)) (ha : a.math = some (l, y)) (hx : l.lo ≤ x ∧ x ≤ l.hi) :
    (increment n a true).math = some (l, l.clamp (x + y)) := by
  cases a with
  | integer i =>
    simp only [Numeric.math, Option.some.injEq, Prod.mk.injEq] at ha
    obtain ⟨rfl, rfl⟩ := ha
    have h1 : (n.asI64 true).toInt = x := by
      rw [asI64_clamp hn]; simp only [Kind.clamp]; omega
    simp only [increment, Numeric.math, if_true, satI64_toInt, h1]
  | unsigned u =>
    simp only [Numeric.math, Option.some.injEq, Prod.mk.injEq] at ha
    obtain ⟨rfl, rfl⟩ := ha
    have h1 : ((n.asU64 true).toNat : Int) = x := by
      rw [asU64_clamp hn]; simp only [Kind.clamp]; omega
    simp only [increment, Numeric.math, if_true, satU64_toNat, h1]
  | float f => cases ha

/-- **C39, saturating.** The same for decrementing. -/
theorem C39_saturating_decrement_partial {n a : Numeric F} {k l : Kind} {x y : Int}
    (hn : n.math = some (k, x)) (ha : a.math = some (l, y)) (hx : l.lo ≤ x ∧ x ≤ l.hi) :
    (decrement n a true).math = some (l, l.clamp (x - y)) := by
  cases a with
  | integer i =>
    simp only [Numeric.math, Option.some.injEq, Prod.mk.injEq] at ha
    obtain ⟨rfl, rfl⟩ := ha
    have h1 : (n.asI64 true).toInt = x := by
      rw [asI64_clamp hn]; simp only [Kind.clamp]; omega
    simp only [decrement, Numeric.math, if_true, satI64_toInt, h1]
  | unsigned u =>
    simp only [Numeric.math, Option.some.injEq, Prod.mk.injEq] at ha
    obtain ⟨rfl, rfl⟩ := ha
    have h1 : ((n.asU64 true).toNat : Int) = x := by
      rw [asU64_clamp hn]; simp only [Kind.clamp]; omega
    simp only [decrement, Numeric.math, if_true, satU64_toNat, h1]
  | float f => cases ha

/-- What saturating arithmetic does in general: the stored number is clamped first. -/
theorem C39_saturating_increment_general {n a : Numeric F} {k l : Kind} {x y : Int}
    (hn : n.math = some (k, x)) (ha : a.math = some (l, y)) :
    (increment n a true).math = some (l, l.clamp (l.clamp x + y)) := by
  cases a with
  | integer i =>
    simp only [Numeric.math, Option.some.injEq, Prod.mk.injEq] at ha
    obtain ⟨rfl, rfl⟩ := ha
    simp only [increment, Numeric.math, if_true, satI64_toInt, asI64_clamp hn]
  | unsigned u =>
    simp only [Numeric.math, Option.some.injEq, Prod.mk.injEq] at ha
    obtain ⟨rfl, rfl⟩ := ha
    simp only [increment, Numeric.math, if_true, satU64_toNat, asU64_clamp hn]
  | float f => cases ha

/-- **C39 is violated** when the types differ (finding F46): adding the unsigned 5 to the stored -1 with
saturation gives 5, although the exact sum, 4, is representable. -/
theorem C39_violated_saturating_mixed_types :
    (increment (.integer (-1) : Numeric F) (.unsigned 5) true).math = some (.unsigned, 5) := by
  have h : (Numeric.integer (-1) : Numeric F).math = some (.signed, -1) := rfl
  have g : (Numeric.unsigned 5 : Numeric F).math = some (.unsigned, 5) := rfl
  rw [C39_saturating_increment_general h g]
  rfl

/-- **C39.** The result has the amount's type, floats included. -/
theorem C39_result_has_the_amounts_type (n a : Numeric F) (s : Bool) :
    (match a, increment n a s with
      | .integer _, .integer _ => True | .unsigned _, .unsigned _ => True | .float _, .float _ => True
      | _, _ => False) ∧
    (match a, decrement n a s with
      | .integer _, .integer _ => True | .unsigned _, .unsigned _ => True | .float _, .float _ => True
      | _, _ => False) := by
  cases a <;> exact ⟨trivial, trivial⟩

/-! ### NaN -/

/-- The value is not a NaN. -/
def NotNaN : Value F → Prop
  | .numeric (.float f) => FloatOps.isNaN f = false
  | _ => True

theorem validate_notNaN {n r : Numeric F} (h : n.validate = .ok r) : NotNaN (.numeric r) := by
  cases n with
  | integer i => simp only [Numeric.validate, Except.ok.injEq] at h; subst h; trivial
  | unsigned i => simp only [Numeric.validate, Except.ok.injEq] at h; subst h; trivial
  | float f =>
    simp only [Numeric.validate] at h
    split at h
    · cases h
    · rename_i hn
      simp only [Except.ok.injEq] at h
      subst h
      simpa [NotNaN] using hn

theorem value_validate_notNaN {v w : Value F} (h : v.validate = .ok w) : NotNaN w := by
  cases v with
  | bytes b => simp only [Value.validate, Except.ok.injEq] at h; subst h; trivial
  | numeric n =>
    simp only [Value.validate] at h
    cases hn : n.validate with
    | error e => rw [hn] at h; cases h
    | ok r =>
      rw [hn] at h
      simp only [Except.map, Except.ok.injEq] at h
      subst h
      exact validate_notNaN hn

def CleanMap (m : KvMap F) : Prop := ∀ k v x, m k = some (v, x) → NotNaN v

theorem clean_put {m : KvMap F} (h : CleanMap m) (k : Bytes) (x : Option (Value F × Option Nat))
    (hx : ∀ v t, x = some (v, t) → NotNaN v) : CleanMap (Spec.put m k x) := by
  intro k' v t hk
  simp only [Spec.put] at hk
  split at hk
  · exact hx v t hk
  · exact h k' v t hk

theorem clean_expire {m : KvMap F} (h : CleanMap m) (now : Nat) : CleanMap (Spec.expire now m) := by
  intro k v x hk
  simp only [Spec.expire] at hk
  split at hk
  · rename_i v' t hm
    split at hk
    · cases hk
    · cases hk; exact h k _ _ hm
  · exact h k v x hk

theorem clean_numeric {m : KvMap F} (h : CleanMap m) (k : Bytes) (f : Numeric F → Numeric F) :
    CleanMap (Spec.numeric m k f).2 := by
  simp only [Spec.numeric]
  rcases m k with _ | ⟨b | n, t⟩
  · simp only
    cases hv : (f (.unsigned 0)).validate with
    | error e => exact h
    | ok r => exact clean_put h k _ (by rintro v t ⟨⟩; exact validate_notNaN hv)
  · exact h
  · simp only
    cases hv : (f n).validate with
    | error e => exact h
    | ok r => exact clean_put h k _ (by rintro v t ⟨⟩; exact validate_notNaN hv)

theorem clean_exec {m : KvMap F} (h : CleanMap m) (op : KeyOp F) : CleanMap (Spec.exec m op).2 := by
  rcases op with ⟨k, c⟩
  cases c with
  | set c =>
    simp only [Spec.exec, Spec.set]
    cases hv : c.value.validate with
    | error e => exact h
    | ok v =>
      simp only
      split
      · exact clean_put h k _ (by rintro v t ⟨⟩; exact value_validate_notNaN hv)
      · exact h
  | get d =>
    cases d
    · exact h
    · exact clean_put h k _ (by rintro v t ⟨⟩)
  | delete => exact clean_put h k _ (by rintro v t ⟨⟩)
  | increment a s => exact clean_numeric h k _
  | decrement a s => exact clean_numeric h k _

theorem clean_runEvents {m : KvMap F} (h : CleanMap m) (es : List (Event F)) :
    CleanMap (Spec.runEvents m es).2 := by
  induction es generalizing m with
  | nil => exact h
  | cons e es ih =>
    cases e with
    | op ck o => exact ih (clean_exec (clean_expire h _) _)
    | tick ck => exact ih (clean_expire h _)
    | write => exact ih h
    | fail => exact ih h
    | finish now => exact ih h
    | shutdown now => exact ih h

/-- **C39.** No execution ever answers a read with NaN: it was never stored. -/
theorem C39_never_stores_nan (p : Persistence) (t0 : Nat) (log : List (List (Bytes × Bool)))
    {es : List (Event F)} {ck : Clock} {k : Bytes} {as : List (Except Err (Output F))} {st : St F}
    {v : Value F} (r : Run (St.new p t0 .empty log) (es ++ [.op ck ⟨k, .get false⟩]) as st)
    (h : as.getLast? = some (.ok (.value (some v)))) : NotNaN v := by
  rw [run_last (inv_new p t0 log) r, perform_get] at h
  have hc : CleanMap (Spec.runEvents (St.new p t0 (.empty : OMap (Entry F)) log).look es).2 :=
    clean_runEvents (by intro k v x hk; cases hk) es
  have hc := clean_expire hc ck.now
  simp only [Option.some.injEq, Except.ok.injEq, Output.value.injEq, Option.map_eq_some_iff] at h
  obtain ⟨⟨w, x⟩, hw, rfl⟩ := h
  exact hc k w x hw

/-! ## Concrete cases -/

example : (increment (.unsigned 3 : Numeric Unit) (.integer (-5)) false).math = some (.signed, -2) := by decide
example : (increment (.unsigned 3 : Numeric Unit) (.integer (-5)) true).math = some (.signed, -2) := by decide
example : (decrement (.unsigned 3 : Numeric Unit) (.unsigned 5) true).math = some (.unsigned, 0) := by decide
example : (decrement (.unsigned 3 : Numeric Unit) (.unsigned 5) false).math = some (.unsigned, 2 ^ 64 - 2) := by decide
example : (increment (.integer 9223372036854775807 : Numeric Unit) (.integer 1) true).math = some (.signed, 2 ^ 63 - 1) := by decide
example : (increment (.integer 9223372036854775807 : Numeric Unit) (.integer 1) false).math = some (.signed, -(2 ^ 63)) := by decide

end Bonsai.KV
