/-!
# Specification: auto traits of Rust

A type has an auto trait if an `impl` says so or, without any `impl` for the type, if all its fields have it;
on recursive types this is meant coinductively.
-/

namespace PM2.Auto

/-- The auto traits in question. -/
inductive Trait
  | send | sync | unwindSafe | refUnwindSafe
deriving DecidableEq, Repr

/-- Types, over the names `N` of structs and enums and the names `K` of foreign types. -/
inductive Ty (N K : Type)
  /-- `u32`, `char`, `bool`, `usize`, `String`, `Box<str>`, `()`: they have all auto traits. -/
  | plain
  | vec (t : Ty N K)
  | vecIntoIter (t : Ty N K)
  | rc (t : Ty N K)
  | phantom (t : Ty N K)
  | foreign (k : K)
  | named (n : N)
deriving DecidableEq

/-- `Impl`s of an auto trait for a struct or enum: none, so that the fields decide, or one under conditions. -/
inductive Source (N K : Type)
  | fields (ts : List (Ty N K))
  | explicit (conditions : List (Trait × Ty N K))

/-- Everything the traits depend on: the definitions of the program, the foreign types, and whether the standard
library has `impl RefUnwindSafe for Rc<T>` (since Rust 1.58). -/
structure Env (N K : Type) where
  source : Trait → N → Source N K
  foreign : Trait → K → Prop
  newRc : Bool

variable {N K : Type}

/-- One step of deciding a trait, with `S` for what is assumed of the parts. `Vec<T>` and its iterator are taken to
need both traits of unwinding for either (more than they do). -/
def Step (E : Env N K) (S : Trait → Ty N K → Prop) : Trait → Ty N K → Prop
  | _, .plain => True
  | .send, .vec t | .send, .vecIntoIter t => S .send t
  | .sync, .vec t | .sync, .vecIntoIter t => S .sync t
  | .unwindSafe, .vec t | .refUnwindSafe, .vec t | .unwindSafe, .vecIntoIter t | .refUnwindSafe, .vecIntoIter t =>
    S .unwindSafe t ∧ S .refUnwindSafe t
  | .send, .rc _ | .sync, .rc _ => False
  | .unwindSafe, .rc t => S .refUnwindSafe t
  | .refUnwindSafe, .rc t => E.newRc = true ∧ S .refUnwindSafe t
  | tr, .phantom t => S tr t
  | tr, .foreign k => E.foreign tr k
  | tr, .named n =>
    match E.source tr n with
    | .fields ts => ∀ t ∈ ts, S tr t
    | .explicit cs => ∀ c ∈ cs, S c.1 c.2

/-- The type has the trait: some set of pairs justifies itself and contains the pair. -/
def Impl (E : Env N K) (tr : Trait) (t : Ty N K) : Prop :=
  ∃ S : Trait → Ty N K → Prop, (∀ tr t, S tr t → Step E S tr t) ∧ S tr t

end PM2.Auto
