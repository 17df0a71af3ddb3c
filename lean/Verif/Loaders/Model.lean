/-!
# Models of the tag filters and of the include scanner

`Extension::SourceFileLoader::filterInput` (core/source_file_info_loaders/extension/source_file_loader.cpp),
`Cxx::SourceFileLoader::filterInput` and `Cxx::SourceFileLoader::getDependencies`
(core/source_file_info_loaders/cxx/source_file_loader.cpp).

Each of them is a loop over the bytes returned by `InputBuffer::getchar` until it returns -1. The model is a function
from the list of these bytes to the bytes that are passed to the output buffers; that buffering is transparent is
the subject of C26 and C27. A `Char` stands for a byte with the same value.
-/

namespace Maike.Loaders

/-- `ch_in >= '\0' && ch_in <= ' '`; `getchar` returns values in [0, 255]. -/
def blank (c : Char) : Bool := c.toNat ≤ 32

/-! ## Extension loader -/

namespace Ext

/-- core/source_file_info_loaders/extension/source_file_loader.cpp:18-24 -/
inductive St where
  | newline
  | tagSymbol
  | tag
  | skipLine
deriving DecidableEq, Repr

/-- The `switch` in lines 36-87: next state and output to `tags`. -/
def step (s : St) (c : Char) : St × List Char :=
  match s with
  | .newline =>
    if c = '#' then (.tagSymbol, [' '])
    else if !blank c then (.skipLine, [])
    else (.newline, [c])
  | .tagSymbol =>
    if c = '@' then (.tag, [' '])
    else if c = '\n' then (.newline, ['\n'])
    else (.skipLine, [])
  | .tag => (if c = '\n' then .newline else .tag, [c])
  | .skipLine => if c = '\n' then (.newline, ['\n']) else (.skipLine, [])

/-- The loop in lines 28-88: output to `source` and `tags`. -/
def loop : St → List Char → List Char × List Char
  | _, [] => ([], [])
  | s, c :: cs =>
    let r := step s c
    let o := loop r.1 cs
    (c :: o.1, r.2 ++ o.2)

/-- `filterInput`, core/source_file_info_loaders/extension/source_file_loader.cpp:10-89. -/
def filterInput (input : List Char) : List Char × List Char := loop .newline input

end Ext

/-! ## C++ loader, tags -/

namespace Cxx

/-- core/source_file_info_loaders/cxx/source_file_loader.cpp:252-266 -/
inductive St where
  | newline
  | commentFirst
  | tagSymbol
  | tag
  | skipLine
  | commentBlock
  | commentBlockPreEnd
  | commentFirstSkipLine
  | rawStringBegin
  | rawStringTag
  | rawString
  | rawStringPreEnd
deriving DecidableEq, Repr

/-- The local variables, lines 267-269. -/
structure State where
  st : St := .newline
  tag : List Char := []
  mark : List Char := []
deriving DecidableEq, Repr

/-- The `switch` in lines 278-438: next state and output to `tags`. -/
def step (s : State) (c : Char) : State × List Char :=
  match s.st with
  | .newline =>
    if c = '/' then ({ s with st := .commentFirst }, [' '])
    else if c = 'R' then (⟨.rawStringBegin, [], []⟩, [])
    else if !blank c then ({ s with st := .skipLine }, [])
    else (s, [c])
  | .commentFirst =>
    if c = '/' then ({ s with st := .tagSymbol }, [' '])
    else if c = '*' then ({ s with st := .commentBlock }, [])
    else if c = '\n' then ({ s with st := .newline }, ['\n'])
    else ({ s with st := .skipLine }, [])
  | .tagSymbol =>
    if c = '@' then ({ s with st := .tag }, [' '])
    else if c = '\n' then ({ s with st := .newline }, ['\n'])
    else ({ s with st := .skipLine }, [])
  | .tag => (if c = '\n' then { s with st := .newline } else s, [c])
  | .skipLine =>
    if c = '\n' then ({ s with st := .newline }, ['\n'])
    else if c = 'R' then (⟨.rawStringBegin, [], []⟩, [])
    else if c = '/' then ({ s with st := .commentFirstSkipLine }, [])
    else (s, [])
  | .commentBlock =>
    if c = '\n' then (s, ['\n'])
    else if c = '*' then ({ s with st := .commentBlockPreEnd }, [])
    else (s, [])
  | .commentBlockPreEnd =>
    if c = '/' then ({ s with st := .skipLine }, [])
    else if c = '\n' then ({ s with st := .commentBlock }, ['\n'])
    else ({ s with st := .commentBlock }, [])
  | .commentFirstSkipLine =>
    if c = '*' then ({ s with st := .commentBlock }, [])
    else if c = '\n' then ({ s with st := .newline }, ['\n'])
    else ({ s with st := .skipLine }, [])
  | .rawStringBegin =>
    if c = '"' then ({ s with st := .rawStringTag }, [])
    else if c = '\n' then ({ s with st := .newline }, ['\n'])
    else ({ s with st := .skipLine }, [])
  | .rawStringTag =>
    if c = '(' then ({ s with st := .rawString }, [])
    else if c = '\n' then ({ s with st := .newline }, ['\n'])
    else ({ s with tag := s.tag ++ [c] }, [])
  | .rawString =>
    if c = '\n' then (s, ['\n'])
    else if c = ')' then ({ s with st := .rawStringPreEnd }, [])
    else (s, [])
  | .rawStringPreEnd =>
    if c = '"' then ({ s with st := if s.mark = s.tag then .skipLine else .rawString, mark := [] }, [])
    else if c = '\n' then ({ s with st := .rawString }, ['\n'])
    else ({ s with mark := s.mark ++ [c] }, [])

/-- The loop in lines 270-439: output to `source` and `tags`. -/
def loop : State → List Char → List Char × List Char
  | _, [] => ([], [])
  | s, c :: cs =>
    let r := step s c
    let o := loop r.1 cs
    (c :: o.1, r.2 ++ o.2)

/-- `filterInput`, core/source_file_info_loaders/cxx/source_file_loader.cpp:244-440. -/
def filterInput (input : List Char) : List Char × List Char := loop {} input

end Cxx

/-! ## C++ loader, includes -/

namespace Inc

/-- core/source_file_info_loaders/cxx/source_file_loader.cpp:29-45 -/
inductive St where
  | newline
  | commentFirst
  | skipLine
  | commentBlock
  | commentBlockPreEnd
  | rawStringBegin
  | rawStringTag
  | rawString
  | rawStringPreEnd
  | prePreprocessorDirective
  | preprocessorDirective
  | preprocessorDirectivePreArg
  | includeProject
  | includeSystem
deriving DecidableEq, Repr

/-- Expected origin of a dependency that was found; subset of `SourceFileOrigin`. -/
inductive Origin where
  | project
  | generated
  | system
deriving DecidableEq, Repr

/-- The local variables, lines 28 and 46-50. -/
structure State where
  st : St := .newline
  tag : List Char := []
  mark : List Char := []
  directive : List Char := []
  path : List Char := []
deriving DecidableEq, Repr

/-- `get_origin`, lines 12-21. `gen` stands for "matches one of the regular expressions for generated includes". -/
def getOrigin (gen : List Char → Bool) (path : List Char) : Origin := if gen path then .generated else .project

/-- The `switch` in lines 57-240: next state and the dependency that is added to `deps`, if any. The moved-from string
`include_path` is empty (lines 213 and 230; this is how libstdc++ and libc++ leave it). -/
def step (gen : List Char → Bool) (s : State) (c : Char) : State × List (List Char × Origin) :=
  match s.st with
  | .newline =>
    if c = '/' then ({ s with st := .commentFirst }, [])
    else if c = 'R' then ({ s with st := .rawStringBegin, tag := [], mark := [] }, [])
    else if c = '#' then ({ s with st := .prePreprocessorDirective, directive := [] }, [])
    else if !blank c then ({ s with st := .skipLine }, [])
    else (s, [])
  | .commentFirst =>
    if c = '*' then ({ s with st := .commentBlock }, [])
    else if c = '\n' then ({ s with st := .newline }, [])
    else ({ s with st := .skipLine }, [])
  | .skipLine =>
    if c = '\n' then ({ s with st := .newline }, [])
    else if c = 'R' then ({ s with st := .rawStringBegin, tag := [], mark := [] }, [])
    else if c = '/' then ({ s with st := .commentFirst }, [])
    else (s, [])
  | .commentBlock => if c = '*' then ({ s with st := .commentBlockPreEnd }, []) else (s, [])
  | .commentBlockPreEnd =>
    if c = '/' then ({ s with st := .skipLine }, []) else ({ s with st := .commentBlock }, [])
  | .rawStringBegin =>
    if c = '"' then ({ s with st := .rawStringTag }, [])
    else if c = '\n' then ({ s with st := .newline }, [])
    else ({ s with st := .skipLine }, [])
  | .rawStringTag =>
    if c = '(' then ({ s with st := .rawString }, [])
    else if c = '\n' then ({ s with st := .newline }, [])
    else ({ s with tag := s.tag ++ [c] }, [])
  | .rawString => if c = ')' then ({ s with st := .rawStringPreEnd }, []) else (s, [])
  | .rawStringPreEnd =>
    if c = '"' then ({ s with st := if s.mark = s.tag then .skipLine else .rawString, mark := [] }, [])
    else if c = '\n' then ({ s with st := .rawString }, [])
    else ({ s with mark := s.mark ++ [c] }, [])
  | .prePreprocessorDirective =>
    if !blank c then ({ s with st := .preprocessorDirective, directive := s.directive ++ [c] }, []) else (s, [])
  | .preprocessorDirective =>
    if c = '<' then
      ({ s with st := if s.directive = ['i', 'n', 'c', 'l', 'u', 'd', 'e'] then .includeSystem else .skipLine }, [])
    else if c = '"' then
      ({ s with st := if s.directive = ['i', 'n', 'c', 'l', 'u', 'd', 'e'] then .includeProject else .skipLine }, [])
    else if blank c then ({ s with st := .preprocessorDirectivePreArg }, [])
    else ({ s with directive := s.directive ++ [c] }, [])
  | .preprocessorDirectivePreArg =>
    if c = '\n' then ({ s with st := .newline }, [])
    else if c = '"' then ({ s with st := .includeProject }, [])
    else if c = '<' then ({ s with st := .includeSystem }, [])
    else if !blank c then ({ s with st := .skipLine }, [])
    else (s, [])
  | .includeProject =>
    if c = '"' then ({ s with st := .skipLine, path := [] }, [(s.path, getOrigin gen s.path)])
    else if c = '\n' then ({ s with st := .newline }, [])
    else ({ s with path := s.path ++ [c] }, [])
  | .includeSystem =>
    if c = '>' then ({ s with st := .skipLine, path := [] }, [(s.path, .system)])
    else if c = '\n' then ({ s with st := .newline }, [])
    else ({ s with path := s.path ++ [c] }, [])

/-- The loop in lines 52-241. -/
def loop (gen : List Char → Bool) : State → List Char → List (List Char × Origin)
  | _, [] => []
  | s, c :: cs =>
    let r := step gen s c
    r.2 ++ loop gen r.1 cs

/-- `getDependencies`, core/source_file_info_loaders/cxx/source_file_loader.cpp:24-242. -/
def getDependencies (gen : List Char → Bool) (input : List Char) : List (List Char × Origin) := loop gen {} input

end Inc

end Maike.Loaders
