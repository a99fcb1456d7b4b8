import Mathlib.Data.List.Basic
import Mathlib.Algebra.Order.Ring.Nat

/-!
# MJCF: splicing included files

`crates/multicalc-robot-model/src/mjcf/document.rs` and the entry points of `mjcf/mod.rs`.

A text is a list of tokens (an opening tag, a closing tag, anything else), where Rust has a `String`; a range counts
tokens where Rust counts bytes.  A self-closing tag is its opening tag followed at once by its closing tag.  What is
trusted is therefore the division of a text into tags and the reading of a tag's name and attributes; the matching of tags,
the ranges of the elements and the splicing are modelled.  The file system is a parameter.
-/

namespace Multicalc
namespace Mjcf

/-- An opening tag: its name, its `file` attribute, and the rest of its text. -/
structure Tag where
  name : String
  file : Option String
  rest : String := ""
  deriving DecidableEq, Repr

/-- One token of a text. -/
inductive Token where
  | opening (tag : Tag)
  | closing (name : String)
  | text (content : String)
  deriving DecidableEq, Repr

/-- A parsed text: the nodes standing side by side. -/
inductive Forest where
  | nil
  | text (content : String) (rest : Forest)
  | element (tag : Tag) (children rest : Forest)
  deriving DecidableEq, Repr

/-- The errors of `document.rs` and `mod.rs`, and the panic of `String::replace_range` on a range outside the text. -/
inductive DocumentError where
  | includeTooDeep (depth : ℕ)
  | fileRead (message : String)
  | xml
  | badAttribute
  | includeNeedsFile
  | panics
  deriving DecidableEq, Repr

/-- The file system: reading a file, and the path of a file named beside another (`directory.join`,
`document.rs:39-41`). -/
structure Sources (Path : Type) where
  file : Path → Except String (List Token)
  beside : Path → String → Path

/-- `MAX_INCLUDE_DEPTH` (`document.rs:12`). -/
def maxIncludeDepth : ℕ := 8

/-- Nodes read backwards so far, put in front of `rest`. -/
def Forest.onto : Forest → Forest → Forest
  | .nil, rest => rest
  | .text content before, rest => before.onto (.text content rest)
  | .element tag children before, rest => before.onto (.element tag children rest)

/-- `roxmltree`'s matching of tags: the open elements with what precedes each, and what precedes the next token, both
last first. -/
def matchTags : List Token → List (Tag × Forest) → Forest → Option Forest
  | [], [], before => some (before.onto .nil)
  | [], _ :: _, _ => none
  | .text content :: tokens, stack, before => matchTags tokens stack (.text content before)
  | .opening tag :: tokens, stack, before => matchTags tokens ((tag, before) :: stack) .nil
  | .closing _ :: _, [], _ => none
  | .closing name :: tokens, (tag, outer) :: stack, before =>
    if tag.name = name then matchTags tokens stack (.element tag (before.onto .nil) outer) else none

/-- How many elements stand side by side. -/
def Forest.elements : Forest → ℕ
  | .nil => 0
  | .text _ rest => rest.elements
  | .element _ _ rest => rest.elements + 1

/-- `Document::parse` (`document.rs:27, 51`, `mod.rs:25-26`): tags match and there is one root element. -/
def parseDocument (tokens : List Token) : Except DocumentError Forest :=
  match matchTags tokens [] .nil with
  | none => .error .xml
  | some forest => if forest.elements = 1 then .ok forest else .error .xml

/-- The number of tokens of the nodes. -/
def Forest.size : Forest → ℕ
  | .nil => 0
  | .text _ rest => rest.size + 1
  | .element _ children rest => children.size + 2 + rest.size

/-- An `<include>` element: `node.range()` and its `file` attribute. -/
structure IncludeElement where
  start : ℕ
  stop : ℕ
  file : Option String

/-- `document.descendants()` that are `<include>` elements (`document.rs:30-31`, `mod.rs:28-29`), in document order, for
nodes that begin at `position`. -/
def includesFrom : ℕ → Forest → List IncludeElement
  | _, .nil => []
  | position, .text _ rest => includesFrom (position + 1) rest
  | position, .element tag children rest =>
    (if tag.name = "include" then [⟨position, position + (children.size + 2), tag.file⟩] else []) ++
      includesFrom (position + 1) children ++ includesFrom (position + (children.size + 2)) rest

/-- The loop over the elements, `document.rs:29-37`: an element without a `file` ends the call. -/
def collectIncludes : List IncludeElement → Except DocumentError (List (ℕ × ℕ × String))
  | [] => .ok []
  | element :: rest =>
    match element.file with
    | none => .error .badAttribute
    | some file =>
      match collectIncludes rest with
      | .error e => .error e
      | .ok found => .ok ((element.start, element.stop, file) :: found)

/-- The ranges of the elements standing side by side (`children().filter(Node::is_element)`, `document.rs:54-55`). -/
def elementRanges : ℕ → Forest → List (ℕ × ℕ)
  | _, .nil => []
  | position, .text _ rest => elementRanges (position + 1) rest
  | position, .element _ children rest =>
    (position, position + (children.size + 2)) :: elementRanges (position + (children.size + 2)) rest

/-- The ranges of the root's element children, `document.rs:52-55`. -/
def rootChildRanges : ℕ → Forest → List (ℕ × ℕ)
  | _, .nil => []
  | position, .text _ rest => rootChildRanges (position + 1) rest
  | position, .element _ children _ => elementRanges (position + 1) children

/-- `String::replace_range`, `document.rs:42`. -/
def replaceRange (text : List Token) (start stop : ℕ) (replacement : List Token) :
    Except DocumentError (List Token) :=
  if start ≤ stop ∧ stop ≤ text.length then .ok (text.take start ++ replacement ++ text.drop stop) else .error .panics

/-- `&xml[child.range()]`, `document.rs:56`. -/
def slice (text : List Token) (start stop : ℕ) : List Token := (text.drop start).take (stop - start)

/-- `pieces.join("\n")`, `document.rs:58`. -/
def joinLines : List (List Token) → List Token
  | [] => []
  | [piece] => piece
  | piece :: next :: rest => piece ++ .text "\n" :: joinLines (next :: rest)

/-- `inner_source` (`document.rs:50-59`). -/
def innerSource (xml : List Token) : Except DocumentError (List Token) :=
  match parseDocument xml with
  | .error e => .error e
  | .ok forest => .ok (joinLines ((rootChildRanges 0 forest).map fun range => slice xml range.1 range.2))

variable {Path : Type}

/-- The loop that splices, `document.rs:40-43`, over the elements last first; `read` is the recursive call. -/
def spliceAll (s : Sources Path) (read : Path → Except DocumentError (List Token)) (path : Path) :
    List (ℕ × ℕ × String) → List Token → Except DocumentError (List Token)
  | [], text => .ok text
  | (start, stop, file) :: rest, text =>
    match read (s.beside path file) with
    | .error e => .error e
    | .ok included =>
      match innerSource included with
      | .error e => .error e
      | .ok inner =>
        match replaceRange text start stop inner with
        | .error e => .error e
        | .ok text => spliceAll s read path rest text

/-- `read` (`document.rs:20-46`), by how many more levels are allowed: `depth` is `maxIncludeDepth + 1 - levels`. -/
def readFile (s : Sources Path) : ℕ → Path → Except DocumentError (List Token)
  | 0, _ => .error (.includeTooDeep (maxIncludeDepth + 1))
  | levels + 1, path =>
    match s.file path with
    | .error message => .error (.fileRead message)
    | .ok text =>
      match parseDocument text with
      | .error e => .error e
      | .ok forest =>
        match collectIncludes (includesFrom 0 forest) with
        | .error e => .error e
        | .ok includes => spliceAll s (readFile s levels) path includes.reverse text

/-- `assemble` (`document.rs:15-17`). -/
def assemble (s : Sources Path) (path : Path) : Except DocumentError (List Token) :=
  readFile s (maxIncludeDepth + 1) path

/-- `load_str` (`mod.rs:24-51`) up to the bodies, which `build` reads. -/
def loadStr {M : Type} (build : Forest → Except DocumentError M) (xml : List Token) : Except DocumentError M :=
  match parseDocument xml with
  | .error e => .error e
  | .ok forest => if (includesFrom 0 forest).isEmpty then build forest else .error .includeNeedsFile

/-- `load_path` (`mod.rs:15-18`). -/
def loadPath {M : Type} (s : Sources Path) (build : Forest → Except DocumentError M) (path : Path) :
    Except DocumentError M :=
  match assemble s path with
  | .error e => .error e
  | .ok xml => loadStr build xml

end Mjcf
end Multicalc
