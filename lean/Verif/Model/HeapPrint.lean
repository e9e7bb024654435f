import Verif.Model.Heap
import Verif.Model.Writer
/-!
# Printing from the heap (src/fallback.rs:225-253, 759-794, src/lib.rs:644-672, 1509-1514)

`Verif.Model.Writer` prints token streams that are plain lists. Here the same implementations print streams on the heap of
`Verif.Model.Heap`. `Display` borrows what it prints. `Debug` of a stream does not: it clones the stream, makes an iterator
of the clone, which clones all trees, and drops each tree when it has been printed; `Debug` of an iterator clones the
iterator.

A printer gets a writer and a heap. Printing calls itself for the stream of each group; the first argument is the
allowed depth of these calls; deeper calls are `diverge`.
-/

namespace PM2.Heap
open Printer (str done times)

/-- What an implementation of `Display` or `Debug` does to a writer and the heap. -/
structure HPrinter where
  run : (σ : Type) → Writer σ → σ → Heap → Res Unit ((σ × Bool) × Heap)

namespace HPrinter

/-- Printing that does not look at the heap. -/
def lift (p : Printer) : HPrinter := ⟨fun σ w s h => .ok (p.run σ w s, h)⟩

/-- `a?; b`. -/
def seq (a b : HPrinter) : HPrinter := ⟨fun σ w s h =>
  match a.run σ w s h with
  | .ok ((s, true), h) => b.run σ w s h
  | .ok ((s, false), h) => .ok ((s, false), h)
  | .err e => .err e
  | .panic => .panic
  | .diverge => .diverge⟩

@[inherit_doc] infixr:60 " ?;; " => seq

/-- `a; b` with the result of `a`: `b` is something that happens to the heap, whether `a` failed or not. -/
def andThen (a : HPrinter) (b : Heap → Res Unit Heap) : HPrinter := ⟨fun σ w s h =>
  match a.run σ w s h with
  | .ok (r, h) =>
    match b h with
    | .ok h => .ok (r, h)
    | .err e => .err e
    | .panic => .panic
    | .diverge => .diverge
  | .err e => .err e
  | .panic => .panic
  | .diverge => .diverge⟩

/-- Look at a cell of the heap. -/
def look (a : Addr) (f : Cell → HPrinter) : HPrinter := ⟨fun σ w s h =>
  match h.read a with
  | .ok c => (f c).run σ w s h
  | .err e => .err e
  | .panic => .panic
  | .diverge => .diverge⟩

/-- Change the heap and go on. -/
def change {α : Type} (b : Heap → Res Unit (Heap × α)) (f : α → HPrinter) : HPrinter := ⟨fun σ w s h =>
  match b h with
  | .ok (h, a) => (f a).run σ w s h
  | .err e => .err e
  | .panic => .panic
  | .diverge => .diverge⟩

/-- The depth is exhausted. -/
def tooDeep : HPrinter := ⟨fun _ _ _ _ => .diverge⟩

/-- Print through a new `PadAdapter`. -/
def indent (p : HPrinter) : HPrinter := ⟨fun σ w s h =>
  match p.run (σ × Bool) (padWriter w) (s, true) h with
  | .ok (r, h) => .ok ((r.1.1, r.2), h)
  | .err e => .err e
  | .panic => .panic
  | .diverge => .diverge⟩

end HPrinter

open HPrinter

/-! ## `Display` -/

/-- src/fallback.rs:229-242: the value of `joint` after printing a token. -/
def jointAfterH : HTree → Bool
  | .punct _ spacing _ => spacing == .joint
  | _ => false

/-- src/fallback.rs:225-246: the loop of `Display for TokenStream`, given how a tree is printed. -/
def displayLoopH (printT : HTree → HPrinter) : List HTree → (first joint : Bool) → HPrinter
  | [], _, _ => lift done
  | t :: l, first, joint =>
    lift (if !first && !joint then str [' '] else done) ?;;
    printT t ?;;
    displayLoopH printT l false (jointAfterH t)

/-- src/lib.rs:644-653 `Display for TokenTree`, as in `displayTreeTo`. -/
def displayTreeH (o : FmtOpts) : Nat → HTree → HPrinter
  | 0, .group .. => tooDeep
  | n + 1, .group d a _ =>
    lift (str (displayOpen d)) ?;;
    look a (fun c => displayLoopH (displayTreeH {} n) c.vec true false) ?;;
    look a (fun c => lift (if d == .brace && !c.vec.isEmpty then str [' '] else done)) ?;;
    lift (str (displayClose d))
  | _, .ident sym raw _ => lift (displayIdentTo sym raw)
  | _, .punct ch _ _ => lift (padTo o [ch])
  | _, .literal repr _ => lift (padTo o repr)

/-- src/fallback.rs:225-246 `Display for TokenStream`. -/
def displayH (n : Nat) (a : Addr) : HPrinter := look a (fun c => displayLoopH (displayTreeH {} n) c.vec true false)

/-! ## `Debug` -/

/-- std `DebugStruct::field`, for the fields in turn, as in `structFields`. -/
def structFieldsH (alternate : Bool) : Bool → List (List Char × HPrinter) → HPrinter
  | _, [] => lift done
  | hasFields, (name, value) :: fields =>
    (if alternate then
      lift (if hasFields then done else str [' ', '{', '\n']) ?;;
      indent (lift (str name) ?;; lift (str [':', ' ']) ?;; value ?;; lift (str [',', '\n']))
    else
      lift (str (if hasFields then [',', ' '] else [' ', '{', ' '])) ?;; lift (str name) ?;; lift (str [':', ' ']) ?;;
      value) ?;;
    structFieldsH alternate true fields

/-- std `Formatter::debug_struct`, the fields, and `DebugStruct::finish`. -/
def debugStructH (alternate : Bool) (name : List Char) (fields : List (List Char × HPrinter)) : HPrinter :=
  lift (str name) ?;; structFieldsH alternate false fields ?;;
  lift (if fields.isEmpty then done else if alternate then str ['}'] else str [' ', '}'])

/-- std `DebugList::entry`. -/
def entryH (alternate hasFields : Bool) (value : HPrinter) : HPrinter :=
  if alternate then
    lift (if hasFields then done else str ['\n']) ?;; indent (value ?;; lift (str [',', '\n']))
  else
    lift (if hasFields then str [',', ' '] else done) ?;; value

/-- std `DebugList::entries` with an owned iterator: after an error the iteration goes on, but nothing is printed any
more. Each tree is dropped at the end of the body of the loop. -/
def entriesH (alternate : Bool) (printT : HTree → HPrinter) (ok hasFields : Bool) : List HTree → HPrinter
  | [] => ⟨fun _ _ s h => .ok ((s, ok), h)⟩
  | t :: v => ⟨fun σ w s h =>
    match ((if ok then entryH alternate hasFields (printT t) else ⟨fun _ _ s h => .ok ((s, false), h)⟩).andThen
        (fun h => dropTree dropDepth h t)).run σ w s h with
    | .ok ((s, ok), h) => (entriesH alternate printT ok true v).run σ w s h
    | .err e => .err e
    | .panic => .panic
    | .diverge => .diverge⟩

/-- std `Formatter::debug_list`, whose error is kept for later, the entries, and `DebugList::finish`. `clone` makes the
iterator. -/
def debugListH (alternate : Bool) (printT : HTree → HPrinter) (clone : Heap → Res Unit (Heap × List HTree)) : HPrinter :=
  ⟨fun σ w s h =>
    let r := w s ['[']
    (change clone (fun v => entriesH alternate printT r.2 false v) ?;; lift (str [']'])).run σ w r.1 h⟩

/-- src/fallback.rs:251, and 105-108, 316-323: `self.clone()` of a stream and `into_iter` of the clone. -/
def cloneIntoIter (a : Addr) (h : Heap) : Res Unit (Heap × List HTree) := do
  let h ← rcClone h a
  takeInner dropDepth h a

/-- src/lib.rs:1512: `self.clone()` of an iterator with the trees `v` left. -/
def cloneIter (v : List HTree) (h : Heap) : Res Unit (Heap × List HTree) := do
  let h ← cloneVec h v
  .ok (h, v)

/-- src/fallback.rs:705-716 `debug_span_field_if_nontrivial`. -/
def debugSpanFieldH (loc : Bool) (s : Span) : List (List Char × HPrinter) :=
  (debugSpanFieldTo loc s).map (fun f => (f.1, lift f.2))

section
variable [UnicodeTables]

/-- src/lib.rs:656-672 `Debug for TokenTree`, as in `debugTreeTo`, with src/fallback.rs:248-253 `Debug for TokenStream` for
the stream of a group. -/
def debugTreeH (loc alternate : Bool) : Nat → HTree → HPrinter
  | 0, .group .. => tooDeep
  | n + 1, .group d a s =>
    debugStructH alternate "Group".toList
      (("delimiter".toList, lift (str (debugDelimiter d))) ::
        ("stream".toList,
          lift (str "TokenStream ".toList) ?;; debugListH alternate (debugTreeH loc alternate n) (cloneIntoIter a)) ::
        debugSpanFieldH loc s)
  | _, .ident sym raw s =>
    lift (debugStructTo alternate "Ident".toList (("sym".toList, displayIdentTo sym raw) :: debugSpanFieldTo loc s))
  | _, .punct ch sp s =>
    lift (debugStructTo alternate "Punct".toList
      (("char".toList, debugCharTo ch) :: ("spacing".toList, str (debugSpacing sp)) :: debugSpanFieldTo loc s))
  | _, .literal repr s =>
    lift (debugStructTo alternate "Literal".toList (("lit".toList, str repr) :: debugSpanFieldTo loc s))

/-- src/fallback.rs:248-253 `Debug for TokenStream`. -/
def debugStreamH (loc alternate : Bool) (n : Nat) (a : Addr) : HPrinter :=
  lift (str "TokenStream ".toList) ?;; debugListH alternate (debugTreeH loc alternate n) (cloneIntoIter a)

/-- src/lib.rs:1509-1514 `Debug for IntoIter`, with the trees `v` left. -/
def debugIterH (loc alternate : Bool) (n : Nat) (v : List HTree) : HPrinter :=
  lift (str "TokenStream ".toList) ?;; debugListH alternate (debugTreeH loc alternate n) (cloneIter v)

end

end PM2.Heap
