import Verif.Time.Model

/-! # Specification vocabulary for time values -/

namespace Bonsai.Time

instance (d : Dur) : Decidable d.WF := by unfold Dur.WF; infer_instance

instance (d : SDur) : Decidable d.WF := by cases d <;> (unfold SDur.WF; infer_instance)

/-- What one unit of each resolution means, in nanoseconds. -/
def unitNanos : Resolution → Int
  | .nanoseconds => 1
  | .microseconds => 1000
  | .milliseconds => 1000000
  | .seconds => 1000000000
  | .minutes => 60 * 1000000000
  | .hours => 60 * 60 * 1000000000
  | .days => 24 * 60 * 60 * 1000000000
  | .weeks => 7 * 24 * 60 * 60 * 1000000000

/-- The three resolutions that mishandle `i64::MIN`. -/
def MinIsWrong (r : Resolution) : Prop := r = .microseconds ∨ r = .milliseconds ∨ r = .seconds

instance (r : Resolution) : Decidable (MinIsWrong r) := by unfold MinIsWrong; infer_instance

/-- Resolutions of a second or finer. -/
def Fine (r : Resolution) : Prop :=
  r = .nanoseconds ∨ r = .microseconds ∨ r = .milliseconds ∨ r = .seconds

instance (r : Resolution) : Decidable (Fine r) := by unfold Fine; infer_instance

/-- `x` is `t` nanoseconds rounded towards negative infinity to whole units. -/
def IsFloor (r : Resolution) (t x : Int) : Prop := x * unitNanos r ≤ t ∧ t < (x + 1) * unitNanos r

/-- `x` units and `t` nanoseconds are less than one unit apart. -/
def WithinOneUnit (r : Resolution) (t x : Int) : Prop :=
  -unitNanos r < x * unitNanos r - t ∧ x * unitNanos r - t < unitNanos r

/-- A duration that has a fractional second. -/
def SDur.hasFraction : SDur → Prop
  | .pos d => d.nanos ≠ 0
  | .neg d => d.nanos ≠ 0

/-- Nanoseconds since the Unix epoch of a key-value timestamp. -/
def Stamp.total (t : Stamp) : Nat := t.seconds * NS + t.nanos

/-- A normalised key-value timestamp. -/
def Stamp.Normal (t : Stamp) : Prop := t.seconds < 2 ^ 64 ∧ t.nanos < NS

instance (t : Stamp) : Decidable t.Normal := by unfold Stamp.Normal; infer_instance

end Bonsai.Time
