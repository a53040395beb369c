/-!
# ACME accounts (model)

`crates/bonsaidb-server/src/server/acme.rs:15-81, 121-127`.

Databases keep documents and unique views exact (C22, C30); `read_account` and `write_account` query the view, which is
up to date (C32), and then write in a transaction of their own.  Several of them may run at once: an event is a
look of a writer at the view, or its write later.  Left out: encryption, deletion of accounts by a program, other
failures of the database.
-/
set_option linter.unusedSimpArgs false
set_option linter.unusedVariables false

namespace Bonsai.Acme

abbrev Contacts := List (List Char)
abbrev Data := List UInt8

/-- `contacts.join(";")`, acme.rs:32, 44, 62. -/
def join : Contacts → List Char
  | [] => []
  | [a] => a
  | a :: b :: l => a ++ ';' :: join (b :: l)

/-- A document of `AcmeAccount`, acme.rs:18-21. -/
structure Account where
  id : Nat
  rev : Nat
  contacts : Contacts
  data : Data
  deriving DecidableEq

/-- The key that view `AcmeAccountByContacts` maps a document to, acme.rs:23-34. -/
def Account.key (a : Account) : List Char := join a.contacts

/-- A writer between its look and its write, acme.rs:59-67. -/
structure Writer where
  contacts : Contacts
  data : Data
  found : Option Account

structure St where
  accounts : List Account := []
  nextId : Nat := 0
  writers : Nat → Option Writer := fun _ => none

/-- The documents the view has under a key, the first of them: acme.rs:42-49, 60-67. -/
def St.query (st : St) (k : List Char) : Option Account := st.accounts.find? fun a => a.key = k

/-- `read_account`, acme.rs:40-56. -/
def St.read (st : St) (contacts : Contacts) : Option Data := (st.query (join contacts)).map Account.data

inductive Error where
  | conflict | notFound | uniqueKeyViolation
  deriving DecidableEq

/-- `update_async`: the document must have the revision of the snapshot; the same contents leave it as it is (C22). -/
def St.update (st : St) (a : Account) : Except Error St :=
  match st.accounts.find? fun b => b.id = a.id with
  | none => .error .notFound
  | some b =>
    if b.rev ≠ a.rev then .error .conflict
    else if st.accounts.any fun c => c.id ≠ a.id && c.key = a.key then .error .uniqueKeyViolation
    else if b.contacts = a.contacts ∧ b.data = a.data then .ok st
    else .ok { st with accounts := st.accounts.map fun c => if c.id = a.id then { a with rev := a.rev + 1 } else c }

/-- `push_into_async` of a new account. -/
def St.push (st : St) (contacts : Contacts) (data : Data) : Except Error St :=
  if st.accounts.any fun c => c.key = join contacts then .error .uniqueKeyViolation
  else .ok { st with accounts := st.accounts ++ [⟨st.nextId, 0, contacts, data⟩], nextId := st.nextId + 1 }

/-- The write of `write_account`, acme.rs:68-78. -/
def St.finish (st : St) (w : Writer) : Except Error St :=
  match w.found with
  | some a => st.update { a with data := w.data }
  | none => st.push w.contacts w.data

/-- What a writer does next. -/
inductive Ev where
  | look (w : Nat) (contacts : Contacts) (data : Data)
  | write (w : Nat)

/-- What came of it: an account was written, or a writer failed. -/
inductive Out where
  | nothing
  | written (contacts : Contacts) (data : Data)
  | failed (contacts : Contacts) (e : Error)

/-- `write_account` in two steps, acme.rs:58-81. -/
def St.step (st : St) : Ev → St × Out
  | .look w c d =>
    ({ st with writers := fun v => if v = w then some ⟨c, d, st.query (join c)⟩ else st.writers v }, .nothing)
  | .write w =>
    match st.writers w with
    | none => (st, .nothing)
    | some p =>
      match st.finish p with
      | .ok st' => ({ st' with writers := fun v => if v = w then none else st'.writers v }, .written p.contacts p.data)
      | .error e => ({ st with writers := fun v => if v = w then none else st.writers v }, .failed p.contacts e)

/-- A history: the state after it, and what came of each event. -/
def St.run (st : St) : List Ev → St × List Out
  | [] => (st, [])
  | e :: l => (((st.step e).1.run l).1, (st.step e).2 :: ((st.step e).1.run l).2)

/-- The contacts that the server's task gives, acme.rs:121-127: its configured e-mail address, if any. -/
def serverContacts (email : Option (List Char)) : Contacts := email.toList

end Bonsai.Acme
