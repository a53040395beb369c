import Verif.Key.Model

/-!
# Model of `bonsaidb-core/src/key/time.rs` and `bonsaidb-core/src/keyvalue/timestamp.rs`

`std::time::Duration` is `Dur`: whole seconds and nanoseconds.  Machine integers are `Nat`/`Int`
with their range checks written out (`tryI`), because the properties are about the extremes.
-/

namespace Bonsai.Time

/-- One second in nanoseconds. -/
abbrev NS : Nat := 1000000000

/-- `std::time::Duration`: `secs : u64`, `nanos : u32`. -/
structure Dur where
  secs : Nat
  nanos : Nat
  deriving DecidableEq, Repr

namespace Dur
/-- The invariant the standard library keeps for every `Duration`. -/
def WF (d : Dur) : Prop := d.secs < 2 ^ 64 ∧ d.nanos < NS

/-- Total length in nanoseconds (`Duration::as_nanos`). -/
def total (d : Dur) : Nat := d.secs * NS + d.nanos

/-- `Duration::from_nanos` / `from_micros` / `from_millis` / `from_secs`, all as "n nanoseconds". -/
def ofTotal (n : Nat) : Dur := ⟨n / NS, n % NS⟩

/-- `Duration::new(secs, nanos)`: carries whole seconds out of `nanos`, panics on overflow. -/
def new (secs nanos : Nat) : Res Dur :=
  if nanos < NS then .ok ⟨secs, nanos⟩
  else if secs + nanos / NS < 2 ^ 64 then .ok ⟨secs + nanos / NS, nanos % NS⟩
  else .panic

/-- `Duration::checked_add`. -/
def checkedAdd (a b : Dur) : Option Dur :=
  let s := a.secs + b.secs
  if s < 2 ^ 64 then
    let n := a.nanos + b.nanos
    if n ≥ NS then
      if s + 1 < 2 ^ 64 then some ⟨s + 1, n - NS⟩ else none
    else some ⟨s, n⟩
  else none

/-- `Duration::checked_sub`. -/
def checkedSub (a b : Dur) : Option Dur :=
  if b.secs ≤ a.secs then
    let s := a.secs - b.secs
    if b.nanos ≤ a.nanos then some ⟨s, a.nanos - b.nanos⟩
    else if 1 ≤ s then some ⟨s - 1, a.nanos + NS - b.nanos⟩
    else none
  else none

/-- `Ord for Duration`: seconds, then nanoseconds. -/
def lt (a b : Dur) : Prop := a.secs < b.secs ∨ (a.secs = b.secs ∧ a.nanos < b.nanos)

instance (a b : Dur) : Decidable (lt a b) := by unfold lt; infer_instance
end Dur

/-! ## `Duration` and `SystemTime` as keys -/

/-- The number handed to `ordered_varint` for a `Duration`: seconds shifted left by 30 bits, or-ed
with the nanoseconds (which fit in 30 bits, so `|` is `+`).
Models crates/bonsaidb-core/src/key/time.rs:39. -/
def merged (d : Dur) : Nat := d.secs * 2 ^ 30 + d.nanos

/-- The `ordered_varint` codec for `u128`: it refuses values with one of the top four bits set
(comment at crates/bonsaidb-core/src/key/time.rs:40-43). -/
abbrev U124 := Fin (2 ^ 124)

/-- `Duration::as_ord_bytes`, crates/bonsaidb-core/src/key/time.rs:38-44.  The `unwrap` panics if
the codec refuses the value. -/
def durationEnc (c : Varint U124) (d : Dur) : Res Bytes :=
  if h : merged d < 2 ^ 124 then .ok (c.enc ⟨merged d, h⟩) else .panic

/-- `Duration::from_ord_bytes`, crates/bonsaidb-core/src/key/time.rs:14-19. -/
def durationDec (c : Varint U124) (b : Bytes) : Res Dur :=
  match c.dec b with
  | none => .err
  | some m =>
    if m.val / 2 ^ 30 < 2 ^ 64 then Dur.new (m.val / 2 ^ 30) (m.val % 2 ^ 30) else .err

/-- `SystemTime` is, as in the standard library's unix implementation, nanoseconds from the Unix
epoch (an `Int`) whose seconds are an `i64`.  `SystemTime::as_ord_bytes`, crates/bonsaidb-core/src/key/time.rs:88-94:
`duration_since(UNIX_EPOCH).unwrap()` panics for times before the epoch. -/
def systemTimeEnc (c : Varint U124) (t : Int) : Res Bytes :=
  if t < 0 then .panic else durationEnc c (Dur.ofTotal t.toNat)

/-- `SystemTime::from_ord_bytes`, crates/bonsaidb-core/src/key/time.rs:65-70:
`UNIX_EPOCH.checked_add` fails when the seconds do not fit in an `i64`. -/
def systemTimeDec (c : Varint U124) (b : Bytes) : Res Int :=
  (durationDec c b).bind fun d =>
    if d.secs < 2 ^ 63 then .ok (d.total : Int) else .err

/-! ## Limited-resolution durations -/

/-- `SignedDuration`, crates/bonsaidb-core/src/key/time.rs:215-222. -/
inductive SDur where
  | pos (d : Dur)
  | neg (d : Dur)
  deriving DecidableEq, Repr

namespace SDur
/-- The signed number of nanoseconds a `SignedDuration` denotes. -/
def total : SDur → Int
  | pos d => d.total
  | neg d => -(d.total : Int)

def WF : SDur → Prop
  | pos d => d.WF
  | neg d => d.WF

/-- `SignedDuration::checked_add`, crates/bonsaidb-core/src/key/time.rs:228-251.
`b - a` panics on underflow; it is only evaluated when `a.checked_sub(b)` failed. -/
def checkedAdd : SDur → SDur → Res (Option SDur)
  | pos a, pos b => .ok ((a.checkedAdd b).map pos)
  | neg a, neg b => .ok ((a.checkedAdd b).map neg)
  | pos a, neg b =>
    match a.checkedSub b with
    | some r => .ok (some (pos r))
    | none => match b.checkedSub a with
      | some r => .ok (some (neg r))
      | none => .panic
  | neg a, pos b =>
    match a.checkedSub b with
    | some r => .ok (some (neg r))
    | none => match b.checkedSub a with
      | some r => .ok (some (pos r))
      | none => .panic
end SDur

/-- The eight `TimeResolution`s of crates/bonsaidb-core/src/key/time.rs:526-830. -/
inductive Resolution where
  | nanoseconds | microseconds | milliseconds | seconds | minutes | hours | days | weeks
  deriving DecidableEq, Repr

namespace Resolution
/-- Width in bits of `Representation` (`i64` or `i32`). -/
def bits : Resolution → Nat
  | nanoseconds | microseconds | milliseconds | seconds => 64
  | _ => 32

def minRepr (r : Resolution) : Int := -2 ^ (r.bits - 1)
def maxRepr (r : Resolution) : Int := 2 ^ (r.bits - 1) - 1

/-- A representation that fits the Rust type. -/
def Valid (r : Resolution) (v : Int) : Prop := r.minRepr ≤ v ∧ v ≤ r.maxRepr

instance (r : Resolution) (v : Int) : Decidable (r.Valid v) := by unfold Valid; infer_instance
end Resolution

/-- `FACTOR` of the coarse resolutions (seconds per unit),
crates/bonsaidb-core/src/key/time.rs:710-712, 744, 782, 819. -/
def factor : Resolution → Nat
  | .minutes => 60
  | .hours => 3600
  | .days => 86400
  | .weeks => 604800
  | _ => 1

/-- `iN::try_from` of a non-negative number. -/
def tryI (bits : Nat) (n : Nat) : Option Int := if n < 2 ^ (bits - 1) then some n else none

/-- Magnitude of a negative representation: exact, except that `checked_abs` of `i64::MIN` fails and
the code substitutes a constant: `2^63` for nanoseconds (time.rs:546), `u64::MAX` for microseconds,
milliseconds and seconds (time.rs:588, 627, 666).  The `i32` resolutions go through `i64` and are
exact (time.rs:703, 736, 774, 811). -/
def magnitude (r : Resolution) (v : Int) : Nat :=
  match r with
  | .microseconds | .milliseconds | .seconds =>
    if v = -2 ^ 63 then 2 ^ 64 - 1 else v.natAbs
  | _ => v.natAbs

/-- `Duration` of `n` units: `Duration::from_nanos`, `from_micros`, `from_millis`, `from_secs`,
and `from_secs(n * FACTOR)`. -/
def unitsToDur (r : Resolution) (n : Nat) : Dur :=
  match r with
  | .nanoseconds => Dur.ofTotal n
  | .microseconds => Dur.ofTotal (n * 1000)
  | .milliseconds => Dur.ofTotal (n * 1000000)
  | .seconds => ⟨n, 0⟩
  | r => ⟨n * factor r, 0⟩

/-- `TimeResolution::repr_to_duration`, crates/bonsaidb-core/src/key/time.rs:539-549, 581-591,
620-630, 659-669, 699-706, 730-741, 768-779, 805-816.  It never fails. -/
def reprToDuration (r : Resolution) (v : Int) : SDur :=
  if 0 ≤ v then .pos (unitsToDur r v.toNat) else .neg (unitsToDur r (magnitude r v))

/-- Negative branch of the fine resolutions: add one nanosecond less than a unit, then truncate
(time.rs:597-605, 636-644, 676-684). -/
def negFine (d : Dur) (unit : Nat) : Option Int :=
  match d.checkedAdd (Dur.ofTotal (unit - 1)) with
  | none => none
  | some up => (tryI 64 (up.total / unit)).map (fun x => -x)

/-- Negative branch of `Nanoseconds` (time.rs:556-565).  `i64::try_from(nanos)` succeeds exactly
when `nanos < 2^63`. -/
def negNanos (d : Dur) : Res Int :=
  if d.total < 2 ^ 63 then .ok (-(d.total : Int))
  else if d.total = 2 ^ 63 then .ok (-2 ^ 63) else .err

/-- Negative branch of `Days` (time.rs:786-789): `map_or(i32::MIN, ..)` saturates. -/
def negDays (d : Dur) : Res Int :=
  if d.secs + factor .days - 1 < 2 ^ 64 then
    if (d.secs + factor .days - 1) / factor .days < 2 ^ 31 then
      .ok (-((d.secs + factor .days - 1) / factor .days : Nat))
    else .ok (-2 ^ 31)
  else .panic

/-- Negative branch of `Minutes`, `Hours` and `Weeks` (time.rs:712-714, 748-752, 823-827). -/
def negCoarse (d : Dur) (f : Nat) : Res Int :=
  if d.secs + f - 1 < 2 ^ 64 then
    .ofOption ((tryI 32 ((d.secs + f - 1) / f)).map (fun x => -x))
  else .panic

/-- `TimeResolution::duration_to_repr`, crates/bonsaidb-core/src/key/time.rs:551-568, 593-607,
632-646, 671-686, 708-716, 743-754, 781-791, 818-829.
Unsigned addition that overflows (`as_secs() + FACTOR - 1`) panics in a build with overflow checks
and wraps otherwise; we model the former. -/
def durationToRepr (r : Resolution) (d : SDur) : Res Int :=
  match r, d with
  | .nanoseconds, .pos d => .ofOption (tryI 64 d.total)
  | .nanoseconds, .neg d => negNanos d
  | .microseconds, .pos d => .ofOption (tryI 64 (d.total / 1000))
  | .microseconds, .neg d => .ofOption (negFine d 1000)
  | .milliseconds, .pos d => .ofOption (tryI 64 (d.total / 1000000))
  | .milliseconds, .neg d => .ofOption (negFine d 1000000)
  | .seconds, .pos d => .ofOption (tryI 64 d.secs)
  | .seconds, .neg d => .ofOption (negFine d NS)
  | .days, .neg d => negDays d
  | r, .pos d => .ofOption (tryI 32 (d.secs / factor r))
  | r, .neg d => negCoarse d (factor r)

/-- One step of the fold in `Option<LimitedResolutionDuration>: Sum`,
crates/bonsaidb-core/src/key/time.rs:443-449. -/
def sumStep (r : Resolution) (acc : Res (Option SDur)) (w : Int) : Res (Option SDur) :=
  acc.bind fun
    | none => .ok none
    | some s => s.checkedAdd (reprToDuration r w)

/-- The end of `Option<LimitedResolutionDuration>: Sum`,
crates/bonsaidb-core/src/key/time.rs:450-454. -/
def sumFinish (r : Resolution) : Option SDur → Res (Option Int)
  | none => .ok none
  | some s => match durationToRepr r s with
    | .ok x => .ok (some x)
    | .err => .ok none
    | .panic => .panic

/-- `Option<LimitedResolutionDuration>: Sum`, crates/bonsaidb-core/src/key/time.rs:434-456. -/
def sumRepr (r : Resolution) : List Int → Res (Option Int)
  | [] => .ok none
  | v :: vs => (vs.foldl (sumStep r) (.ok (some (reprToDuration r v)))).bind (sumFinish r)

/-! ## Limited-resolution timestamps -/

/-- `TimeEpoch::epoch_offset`: the epoch as a `Duration` since the Unix epoch.
`UnixEpoch` is 0, `BonsaiEpoch` 1_931_747_507 s (crates/bonsaidb-core/src/key/time.rs:1287-1289, 1325-1327). -/
abbrev Epoch := Dur

def unixEpoch : Epoch := ⟨0, 0⟩
def bonsaiEpoch : Epoch := ⟨1931747507, 0⟩

/-- `duration_since_unix_epoch`, crates/bonsaidb-core/src/key/time.rs:1069-1079. -/
def sinceUnixEpoch (r : Resolution) (e : Epoch) (v : Int) : Option Dur :=
  match reprToDuration r v with
  | .pos o => e.checkedAdd o
  | .neg o => e.checkedSub o

/-- Decimal digits, most significant first (`Display for u64`). -/
def decimal (n : Nat) : List Char :=
  if n < 10 then [Char.ofNat (48 + n)] else decimal (n / 10) ++ [Char.ofNat (48 + n % 10)]
termination_by n

/-- `{:0w}`: zero-pad on the left to width `w`. -/
def padded (w n : Nat) : List Char := List.replicate (w - (decimal n).length) '0' ++ decimal n

/-- `display`, crates/bonsaidb-core/src/key/time.rs:1029-1048 (`to_timestamp_string`). -/
def displayDur (d : Dur) : List Char :=
  decimal d.secs ++
    (if d.nanos > 0 then
      (if d.nanos % 1000000 = 0 then '.' :: padded 3 (d.nanos / 1000000)
       else if d.nanos % 1000 = 0 then '.' :: padded 6 (d.nanos / 1000)
       else '.' :: padded 9 d.nanos)
     else [])

/-- `to_timestamp_string`, crates/bonsaidb-core/src/key/time.rs:1024-1027. -/
def toTimestampString (r : Resolution) (e : Epoch) (v : Int) : Option (List Char) :=
  (sinceUnixEpoch r e v).map displayDur

/-- Suffixes of `Display for LimitedResolutionDuration`. -/
def suffix : Resolution → List Char
  | .nanoseconds => ['n', 's'] | .microseconds => ['u', 's'] | .milliseconds => ['m', 's']
  | .seconds => ['s'] | .minutes => ['m'] | .hours => ['h'] | .days => ['d'] | .weeks => ['w']

/-- `Display for iN`. -/
def decimalInt (v : Int) : List Char :=
  if v < 0 then '-' :: decimal v.natAbs else decimal v.toNat

/-- `Display for LimitedResolutionTimestamp`, crates/bonsaidb-core/src/key/time.rs:1092-1100: falls
back to the duration's own text when the timestamp has no Unix time.  (Simplified: on the error path
nothing has been written yet, because the error comes from `duration_since_unix_epoch`.) -/
def displayTimestamp (r : Resolution) (e : Epoch) (v : Int) : List Char :=
  match toTimestampString r e v with
  | some s => s
  | none => decimalInt v ++ suffix r

/-- One step of `from_str_radix(10)`. -/
def digit (c : Char) : Option Nat :=
  if '0'.toNat ≤ c.toNat ∧ c.toNat ≤ '9'.toNat then some (c.toNat - '0'.toNat) else none

/-- Accumulate digits, failing on a non-digit or when the value leaves the type. -/
def parseDigits (bound : Nat) : Nat → List Char → Option Nat
  | acc, [] => some acc
  | acc, c :: cs =>
    match digit c with
    | none => none
    | some k => if acc * 10 + k < bound then parseDigits bound (acc * 10 + k) cs else none

/-- `str::parse::<u64>` / `parse::<u32>`: optional `+`, at least one digit. -/
def parseUnsigned (bound : Nat) (s : List Char) : Option Nat :=
  match s with
  | [] => none
  | ['+'] => none
  | '+' :: cs => parseDigits bound 0 cs
  | cs => parseDigits bound 0 cs

/-- `str::split('.')`. -/
def splitDot : List Char → List (List Char)
  | [] => [[]]
  | c :: cs =>
    match splitDot cs with
    | [] => [[c]]
    | p :: ps => if c = '.' then [] :: p :: ps else (c :: p) :: ps

/-- UTF-8 length of a string (`str::len`). -/
def utf8Len (s : List Char) : Nat := (s.map fun c => c.utf8Size).sum

/-- First half of `FromStr`, crates/bonsaidb-core/src/key/time.rs:1109-1129: text to a duration
since the Unix epoch.  `subseconds * 10^k` would panic on `u32` overflow. -/
def parseDur (s : List Char) : Res Dur :=
  match splitDot s with
  | [] => .err
  | secs :: rest =>
    match parseUnsigned (2 ^ 64) secs with
    | none => .err
    | some seconds =>
      match rest with
      | [] => .ok ⟨seconds, 0⟩
      | sub :: more =>
        if utf8Len sub > 9 ∨ more ≠ [] then .err
        else match parseUnsigned (2 ^ 32) sub with
          | none => .err
          | some k =>
            if k * 10 ^ (9 - utf8Len sub) < 2 ^ 32 then Dur.new seconds (k * 10 ^ (9 - utf8Len sub))
            else .panic

/-- `FromStr for LimitedResolutionTimestamp`, crates/bonsaidb-core/src/key/time.rs:1109-1141. -/
def parseTimestamp (r : Resolution) (e : Epoch) (s : List Char) : Res Int :=
  (parseDur s).bind fun d =>
    if d.lt e then
      match e.checkedSub d with
      | some x => durationToRepr r (.neg x)
      | none => .panic
    else
      match d.checkedSub e with
      | some x => durationToRepr r (.pos x)
      | none => .panic

/-! ## Key-value `Timestamp` -/

/-- `keyvalue::Timestamp`, crates/bonsaidb-core/src/keyvalue/timestamp.rs:12-17.  Both fields are
public, so `nanos` can be any `u32`. -/
structure Stamp where
  seconds : Nat
  nanos : Nat
  deriving DecidableEq, Repr

namespace Stamp
/-- The derived `Ord`, crates/bonsaidb-core/src/keyvalue/timestamp.rs:11. -/
def lt (a b : Stamp) : Prop := a.seconds < b.seconds ∨ (a.seconds = b.seconds ∧ a.nanos < b.nanos)

instance (a b : Stamp) : Decidable (lt a b) := by unfold lt; infer_instance

/-- `a <= b` of the derived `Ord`. -/
def le (a b : Stamp) : Prop := ¬ lt b a

instance (a b : Stamp) : Decidable (le a b) := by unfold le; infer_instance

/-- The `while` loop of `Add<Duration>`, crates/bonsaidb-core/src/keyvalue/timestamp.rs:72-75.
Note the strict comparison. -/
def carry (seconds nanos : Nat) : Stamp :=
  if nanos > 1000000000 then carry (min (seconds + 1) (2 ^ 64 - 1)) (nanos - 1000000000)
  else ⟨seconds, nanos⟩
termination_by nanos
decreasing_by omega

/-- `Add<Duration> for Timestamp`, crates/bonsaidb-core/src/keyvalue/timestamp.rs:69-77. -/
def add (t : Stamp) (d : Dur) : Res Stamp :=
  if t.nanos + d.nanos < 2 ^ 32 then
    .ok (carry (min (t.seconds + d.secs) (2 ^ 64 - 1)) (t.nanos + d.nanos))
  else .panic

/-- `Sub for Timestamp`, crates/bonsaidb-core/src/keyvalue/timestamp.rs:59-63. -/
def sub (a b : Stamp) : Res (Option Dur) :=
  (Dur.new a.seconds a.nanos).bind fun x => (Dur.new b.seconds b.nanos).map fun y => x.checkedSub y

/-- `as_ord_bytes`, crates/bonsaidb-core/src/keyvalue/timestamp.rs:110-114. -/
def enc (t : Stamp) : Bytes := toBE 8 t.seconds ++ toBE 4 t.nanos

/-- `from_ord_bytes`, crates/bonsaidb-core/src/keyvalue/timestamp.rs:81-90. -/
def dec (b : Bytes) : Res Stamp :=
  if b.length ≠ 12 then .err
  else .ok ⟨fromBE (b.take 8), fromBE ((b.drop 8).take 4)⟩
end Stamp

end Bonsai.Time
