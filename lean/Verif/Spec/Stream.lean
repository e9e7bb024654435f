import Verif.Model.Heap
import Verif.Spec.Tokens
/-!
# Specification: token streams as values

The same programs as in `Verif.Model.Heap`, on token streams that are plain lists: every clone is a
copy, and nothing is shared. `Shows h l ts` says what the trees `l` of the heap mean as a value.
-/

namespace PM2.Spec
open Heap

/-- The contents of a variable. -/
inductive Val where
  | dead
  | stream (ts : List TokenTree)
  | borrowed (ts : List TokenTree)
  | tree (t : TokenTree)
  | owned (ts : List TokenTree)
deriving Repr

/-- What a token becomes when it is put into a stream: a negative literal becomes a minus sign and a
literal. -/
def splitNeg : TokenTree → List TokenTree
  | .literal ('-' :: repr) s => [.punct '-' .alone s, .literal repr s]
  | t => [t]

/-- A token that is not a group, as a value. -/
def leafValue : HTree → Option TokenTree
  | .ident sym raw s => some (.ident sym raw s)
  | .punct ch sp s => some (.punct ch sp s)
  | .literal r s => some (.literal r s)
  | .group .. => none

/-- The operations on values. `none` if a variable does not hold what the operation needs. -/
def vstep (v : List Val) : Op → Option (List Val)
  | .builder => some (v ++ [.owned []])
  | .build i =>
    match v[i]? with
    | some (.owned ts) => some (v.set i .dead ++ [.stream ts])
    | _ => none
  | .cloneStream i =>
    match v[i]? with
    | some (.stream ts) => some (v ++ [.stream ts])
    | _ => none
  | .cloneTree i =>
    match v[i]? with
    | some (.tree t) => some (v ++ [.tree t])
    | _ => none
  | .cloneOwned i =>
    match v[i]? with
    | some (.owned ts) => some (v ++ [.owned ts])
    | _ => none
  | .dropStream i =>
    match v[i]? with
    | some (.stream _) => some (v.set i .dead)
    | _ => none
  | .dropTree i =>
    match v[i]? with
    | some (.tree _) => some (v.set i .dead)
    | _ => none
  | .dropOwned i =>
    match v[i]? with
    | some (.owned _) => some (v.set i .dead)
    | _ => none
  | .intoOwned i =>
    match v[i]? with
    | some (.stream ts) => some (v.set i .dead ++ [.owned ts])
    | _ => none
  | .next i =>
    match v[i]? with
    | some (.owned (t :: ts)) => some (v.set i (.owned ts) ++ [.tree t])
    | some (.owned []) => some v
    | _ => none
  | .pushOwned i j =>
    match v[i]?, v[j]? with
    | some (.owned ts), some (.tree t) => some ((v.set j .dead).set i (.owned (ts ++ [t])))
    | _, _ => none
  | .pushOwnedPM i j =>
    match v[i]?, v[j]? with
    | some (.owned ts), some (.tree t) => some ((v.set j .dead).set i (.owned (ts ++ splitNeg t)))
    | _, _ => none
  | .extendOwned i j =>
    match v[i]?, v[j]? with
    | some (.owned ts), some (.owned us) =>
      if i = j then none else some ((v.set j .dead).set i (.owned (ts ++ us)))
    | _, _ => none
  | .makeMut i =>
    match v[i]? with
    | some (.stream ts) => some (v.set i (.borrowed ts))
    | _ => none
  | .pushMut i j =>
    match v[i]?, v[j]? with
    | some (.borrowed ts), some (.tree t) => some ((v.set j .dead).set i (.borrowed (ts ++ [t])))
    | _, _ => none
  | .extendMut i j =>
    match v[i]?, v[j]? with
    | some (.borrowed ts), some (.owned us) => some ((v.set j .dead).set i (.borrowed (ts ++ us)))
    | _, _ => none
  | .pushMutPM i j =>
    match v[i]?, v[j]? with
    | some (.borrowed ts), some (.tree t) => some ((v.set j .dead).set i (.borrowed (ts ++ splitNeg t)))
    | _, _ => none
  | .endMut i =>
    match v[i]? with
    | some (.borrowed ts) => some (v.set i (.stream ts))
    | _ => none
  | .groupNew d i =>
    match v[i]? with
    | some (.stream ts) => some (v.set i .dead ++ [.tree (.group d ts Span.callSite)])
    | _ => none
  | .groupStream i =>
    match v[i]? with
    | some (.tree (.group _ ts _)) => some (v ++ [.stream ts])
    | _ => none
  | .leaf t =>
    match leafValue t with
    | some t => some (v ++ [.tree t])
    | none => none
  | .setSpan i s =>
    match v[i]? with
    | some (.tree t) => some (v.set i (.tree (t.setSpan s)))
    | _ => none

/-- A program on values. -/
def vrun (v : List Val) : List Op → Option (List Val)
  | [] => some v
  | op :: ops => (vstep v op).bind (fun v => vrun v ops)

/-- The trees `l`, in the heap `h`, are the tokens `ts`. -/
inductive Shows (h : Heap) : List HTree → List TokenTree → Prop
  | nil : Shows h [] []
  | ident {sym raw s l ts} : Shows h l ts → Shows h (.ident sym raw s :: l) (.ident sym raw s :: ts)
  | punct {c sp s l ts} : Shows h l ts → Shows h (.punct c sp s :: l) (.punct c sp s :: ts)
  | literal {r s l ts} : Shows h l ts → Shows h (.literal r s :: l) (.literal r s :: ts)
  | group {d a s c inner l ts} : h.get a = some c → Shows h c.vec inner → Shows h l ts →
      Shows h (.group d a s :: l) (.group d inner s :: ts)

/-- What a variable holds. -/
inductive Holds (h : Heap) : Root → Val → Prop
  | dead : Holds h .dead .dead
  | stream {a c ts} : h.get a = some c → Shows h c.vec ts → Holds h (.stream a) (.stream ts)
  | borrowed {a c ts} : h.get a = some c → Shows h c.vec ts → Holds h (.borrowed a) (.borrowed ts)
  | tree {t t'} : Shows h [t] [t'] → Holds h (.tree t) (.tree t')
  | owned {l ts} : Shows h l ts → Holds h (.owned l) (.owned ts)

/-- A state that some program reaches. -/
def Reachable (s : State) : Prop := ∃ ops, run State.init ops = .ok s

/-- In the state `s`, the variable `i` holds the value `w`. -/
def VarHolds (s : State) (i : Nat) (w : Val) : Prop := ∃ r, s.vars[i]? = some r ∧ Holds s.heap r w

/-- The variables `js` hold the values `f u` for the `u` in `us`, in order. -/
inductive VarsHold (s : State) {α : Type} (f : α → Val) : List Nat → List α → Prop
  | nil : VarsHold s f [] []
  | cons {j u js us} : VarHolds s j (f u) → VarsHold s f js us → VarsHold s f (j :: js) (u :: us)

/-- The variables that an operation changes. -/
def changes : Op → List Nat
  | .builder | .cloneStream _ | .cloneTree _ | .cloneOwned _ | .groupStream _ | .leaf _ => []
  | .build i | .dropStream i | .dropTree i | .dropOwned i | .intoOwned i | .next i | .makeMut i
  | .endMut i | .groupNew _ i | .setSpan i _ => [i]
  | .pushOwned i j | .pushOwnedPM i j | .extendOwned i j | .pushMut i j | .extendMut i j
  | .pushMutPM i j => [i, j]

/-- The cell `a` is the stream of a tree of the list. -/
def Points (l : List HTree) (a : Addr) : Prop := ∃ d s, HTree.group d a s ∈ l

/-- The variable refers to the cell `a`. -/
def RootPoints (r : Root) (a : Addr) : Prop :=
  match r with
  | .dead => False
  | .stream b => b = a
  | .borrowed b => b = a
  | .tree t => Points [t] a
  | .owned l => Points l a

/-- The cell `a` is owned, directly or indirectly, by a variable. -/
inductive Owned (s : State) : Addr → Prop
  | root {r a} : r ∈ s.vars → RootPoints r a → Owned s a
  | child {a b c} : Owned s b → s.heap.get b = some c → Points c.vec a → Owned s a

/-- The stream holds no negative literal, at any depth. -/
def NoNegative (ts : List TokenTree) : Prop :=
  ∀ r span, Sub (.literal r span) ts → r.head? ≠ some '-'

/-- A tree outside of a stream may be a negative literal, with one minus sign. -/
def TreeOk : TokenTree → Prop
  | .literal r _ => ¬ ['-', '-'] <+: r
  | .group _ ts _ => NoNegative ts
  | _ => True

/-- No negative literal in a stream. -/
def ValOk : Val → Prop
  | .dead => True
  | .stream ts => NoNegative ts
  | .borrowed ts => NoNegative ts
  | .owned ts => NoNegative ts
  | .tree t => TreeOk t

/-- The operations of users, and of the parser: literals have at most one minus sign (C36_literals), and
the operations that push a token as it is, which only the parser and the iteration of streams use, are
not given negative literals (C36_parse). -/
def OpOk (v : List Val) : Op → Prop
  | .leaf (.literal r _) => ¬ ['-', '-'] <+: r
  | .pushOwned _ j => ∀ r span, v[j]? = some (.tree (.literal r span)) → r.head? ≠ some '-'
  | .pushMut _ j => ∀ r span, v[j]? = some (.tree (.literal r span)) → r.head? ≠ some '-'
  | _ => True

def RunOk (v : List Val) : List Op → Prop
  | [] => True
  | op :: ops => OpOk v op ∧ ∀ v', vstep v op = some v' → RunOk v' ops

/-- What an operation appends to the stream in variable `i` while it is mutably borrowed. -/
def pushed (i : Nat) (v : List Val) : Op → List TokenTree
  | .pushMut k j =>
    match v[j]? with
    | some (.tree t) => if k = i then [t] else []
    | _ => []
  | .pushMutPM k j =>
    match v[j]? with
    | some (.tree t) => if k = i then splitNeg t else []
    | _ => []
  | .extendMut k j =>
    match v[j]? with
    | some (.owned ts) => if k = i then ts else []
    | _ => []
  | _ => []

def pushedRun (i : Nat) (v : List Val) : List Op → List TokenTree
  | [] => []
  | op :: ops =>
    match vstep v op with
    | some v' => pushed i v op ++ pushedRun i v' ops
    | none => []

/-- `TokenStream::new` (src/fallback.rs:77-81) in a program with `n` variables; the result is variable
`n + 1`. -/
def newProg (n : Nat) : List Op := [.builder, .build n]

/-- `From<TokenTree>` (src/fallback.rs:269-277). The result is variable `n + 1`. -/
def fromTreeProg (n j : Nat) : List Op := [.builder, .pushOwnedPM n j, .build n]

/-- `Extend<TokenTree>` (src/fallback.rs:299-306) with the trees in the variables `js`. -/
def extendTreesProg (i : Nat) (js : List Nat) : List Op :=
  .makeMut i :: js.map (.pushMutPM i) ++ [.endMut i]

/-- `FromIterator<TokenTree>` (src/fallback.rs:279-285). The result is variable `n + 1`. -/
def collectTreesProg (n : Nat) (js : List Nat) : List Op :=
  newProg n ++ extendTreesProg (n + 1) js

/-- The streams in the variables `js` are iterated; the iterators are the variables from `n` on; `push`
takes them up. -/
def flatProg (push : Nat → Op) : Nat → List Nat → List Op
  | _, [] => []
  | n, j :: js => .intoOwned j :: push n :: flatProg push (n + 1) js

/-- `Extend<TokenStream>` (src/fallback.rs:308-312). -/
def extendStreamsProg (n i : Nat) (js : List Nat) : List Op :=
  .makeMut i :: flatProg (.extendMut i) n js ++ [.endMut i]

/-- `FromIterator<TokenStream>` (src/fallback.rs:287-297). The result is variable
`n + 1 + js.length`. -/
def collectStreamsProg (n : Nat) (js : List Nat) : List Op :=
  .builder :: flatProg (.extendOwned n) (n + 1) js ++ [.build n]

end PM2.Spec
