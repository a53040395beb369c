/-!
# Reading a password from the terminal (model)

`crates/bonsaidb-local/src/cli.rs` and `cli/admin.rs`.
-/
set_option linter.unusedSimpArgs false
set_option linter.unusedVariables false

namespace Bonsai.Cli

/-- `other as char`, cli.rs:204: the byte as a code point. -/
def byteChar (b : UInt8) : Char := Char.ofNat b.toNat

/-- `u8::is_ascii_control` (std). -/
def isControl (b : UInt8) : Bool := b < 32 || b == 127

/-- What the loop does with one byte, cli.rs:185-207. -/
inductive Act where
  | cancel | pop | clear | finish | skip
  | push (c : Char)
  deriving DecidableEq

/-- cli.rs:185-207 with the constants of cli.rs:165-169. -/
def act (b : UInt8) : Act :=
  if b = 27 ∨ b = 3 then .cancel
  else if b = 127 then .pop
  else if b = 21 then .clear
  else if b = 10 ∨ b = 13 ∨ b = 4 then .finish
  else if isControl b then .skip
  else .push (byteChar b)

/-- `read_password_loop`, cli.rs:163-209: the password or none if cancelled, and the input that is left.  The end of the
input ends the password (cli.rs:182-184).  The terminal's output and its errors are not modelled. -/
def readLoop : List UInt8 → List Char → Option (List Char) × List UInt8
  | [], pw => (some pw, [])
  | b :: rest, pw =>
    match act b with
    | .cancel => (none, rest)
    | .pop => readLoop rest pw.dropLast
    | .clear => readLoop rest []
    | .finish => (some pw, rest)
    | .skip => readLoop rest pw
    | .push c => readLoop rest (pw ++ [c])

/-- `ReadPasswordError`, cli.rs:122-134. -/
inductive ReadError where
  | cancelled | mismatch
  deriving DecidableEq

/-- `read_password_from_stdin`, cli.rs:107-119 with `read_sensitive_input_from_stdin`, cli.rs:137-160.  Both lines are
read from one buffered stream. -/
def readPassword (confirm : Bool) (input : List UInt8) : Except ReadError (List Char) :=
  match readLoop input [] with
  | (none, _) => .error .cancelled
  | (some pw, rest) =>
    if confirm then
      match readLoop rest [] with
      | (none, _) => .error .cancelled
      | (some again, _) => if pw ≠ again then .error .mismatch else .ok pw
    else .ok pw

/-! ## The commands -/

/-- The storage as the commands see it: the users with their passwords, and whether it refuses a call. -/
structure Store where
  users : List (String × Option (List Char))
  refuseCreate : Bool
  refusePassword : Bool
  deriving DecidableEq

/-- What a command ends with. -/
inductive End where
  | ok | noPassword (e : ReadError) | refused
  deriving DecidableEq

/-- `set_user_password` (its effect is C60's): the user must exist and the call must be permitted. -/
def Store.setPassword (s : Store) (u : String) (pw : List Char) : Option Store :=
  if s.refusePassword ∨ ¬ (s.users.any (·.1 == u)) then none
  else some { s with users := s.users.map fun x => if x.1 == u then (u, some pw) else x }

/-- `create_user`: names are unique. -/
def Store.create (s : Store) (u : String) : Option Store :=
  if s.refuseCreate ∨ s.users.any (·.1 == u) then none else some { s with users := s.users ++ [(u, none)] }

/-- `UserCommand::Create`, admin.rs:67-83. -/
def createCmd (s : Store) (u : String) (withPassword : Bool) (input : List UInt8) : Store × End :=
  if withPassword then
    match readPassword true input with
    | .error e => (s, .noPassword e)
    | .ok pw =>
      match s.create u with
      | none => (s, .refused)
      | some s' =>
        match s'.setPassword u pw with
        | none => (s', .refused)
        | some s'' => (s'', .ok)
  else
    match s.create u with
    | none => (s, .refused)
    | some s' => (s', .ok)

/-- `UserCommand::SetPassword`, admin.rs:85-90. -/
def setPasswordCmd (s : Store) (u : String) (input : List UInt8) : Store × End :=
  match readPassword true input with
  | .error e => (s, .noPassword e)
  | .ok pw =>
    match s.setPassword u pw with
    | none => (s, .refused)
    | some s' => (s', .ok)

end Bonsai.Cli
