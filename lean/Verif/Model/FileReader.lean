/-
Model of FileReader.{hpp,cpp}.

Simplifications: the file's content does not change while it is open and the C library reports no I/O error (`ferror`
is never set).  `fread` and `getdelim` are modelled by what the C and POSIX standards say about them.  A byte is a number.
-/
namespace LogSurgeon

/-- A `FILE*` opened for reading: content, file position, end-of-file indicator. -/
structure OpenFile where
  content : List Nat
  pos : Nat := 0
  eof : Bool := false
deriving Repr, DecidableEq

namespace OpenFile

/-- The bytes after the file position. -/
def rest (f : OpenFile) : List Nat := f.content.drop f.pos

/-- C `fread(buf, 1, n, f)`: the bytes read; the end-of-file indicator is set if there are fewer than `n`. -/
def fread (f : OpenFile) (n : Nat) : OpenFile × List Nat :=
  let got := f.rest.take n
  ({ f with pos := f.pos + got.length, eof := f.eof || decide (got.length < n) }, got)

/-- The bytes up to and including the first `delim`; the flag says whether there is one. -/
def upTo (delim : Nat) : List Nat → List Nat × Bool
  | [] => ([], false)
  | c :: cs => if c = delim then ([c], true) else (c :: (upTo delim cs).1, (upTo delim cs).2)

/-- POSIX `getdelim`: `none` is the return value -1 (end of file, nothing read). -/
def getdelim (f : OpenFile) (delim : Nat) : OpenFile × Option (List Nat) :=
  match upTo delim f.rest with
  | (got, found) =>
    ({ f with pos := f.pos + got.length, eof := f.eof || !found }, if got.isEmpty then none else some got)

end OpenFile

/-- Constants.hpp:14-24 `ErrorCode`, the values `FileReader` returns. -/
inductive FileCode where
  | success
  | endOfFile
  | notInit
  | badParam
  | fileNotFound
deriving Repr, DecidableEq

/-- FileReader.hpp:57-60: `m_file` (`none` is the null pointer). -/
structure FileReader where
  file : Option OpenFile := none
deriving Repr, DecidableEq

namespace FileReader

/-- FileReader.cpp:52-59 `close`. -/
def close (_ : FileReader) : FileReader := { file := none }

/-- FileReader.cpp:39-50 `try_open`; `fs` is the content of the file at the path, `none` if there is no such file. -/
def tryOpen (r : FileReader) (fs : Option (List Nat)) : FileReader × FileCode :=
  match fs with
  | none => (r.close, .fileNotFound)
  | some content => ({ file := some { content := content } }, .success)

/-- FileReader.cpp:18-37 `read` with a buffer that is null or not; `num_bytes_read` is the length of the list (it stays
unset with the codes NotInit and BadParam). -/
def read (r : FileReader) (bufNull : Bool) (n : Nat) : FileReader × FileCode × List Nat :=
  match r.file with
  | none => (r, .notInit, [])
  | some f =>
    if bufNull then (r, .badParam, [])
    else
      let (f, got) := f.fread n
      let code := if got.length < n && f.eof && got.length == 0 then FileCode.endOfFile else .success
      ({ file := some f }, code, got)

/-- FileReader.cpp:61-81 `try_read_to_delimiter`: the new value of `str` is the last component.  `none`: the assertion
fails (no file is open), or the size is negative and the end-of-file indicator is not set (it would read `buf[-2]`). -/
def tryReadToDelimiter (r : FileReader) (delim : Nat) (keep append : Bool) (str : List Nat) :
    Option (FileReader × FileCode × List Nat) :=
  match r.file with
  | none => none
  | some f =>
    let str := if append == false then [] else str
    match f.getdelim delim with
    | (f, none) => if f.eof then some ({ file := some f }, .endOfFile, str) else none
    | (f, some got) =>
      let got := if keep == false && got.getLast? == some delim then got.dropLast else got
      some ({ file := some f }, .success, str ++ got)

end FileReader
end LogSurgeon
