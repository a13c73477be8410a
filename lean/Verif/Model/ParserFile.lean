import Verif.Model.SchemaParse
import Verif.Spec.Events
import Verif.Model.ReaderParser
/-
The constructors that take the path of a schema file.
-/
namespace LogSurgeon

/-- BufferParser.cpp:13-14 with LogParser.cpp:30-37: `SchemaParser::try_schema_file`, then the constructor from the AST.  `fs` is the content
of the file at the path (`none`: no such file).  The symbol tables, which are members of the lexer in the code (Lexer.hpp:127-128), are
returned beside the parser, and the number of used entries of the array for children as in `trySchemaFile`. -/
def BufferParser.ofFile (E : SchemaEnv) (kids : Nat) (fs : Option (List Nat)) (addr : Nat → Nat) (mem : Mem) (inStatic outStatic : Nat) :
    Except Fail (ParserTables × BufferParser × Nat) :=
  match trySchemaFile E kids fs with
  | .error e => .error e
  | .ok (a, kids') =>
    match buildLexer a addr with
    | .error e => .error e
    | .ok (t, _) =>
      match BufferParser.new a addr mem inStatic outStatic with
      | .error e => .error e
      | .ok p => .ok (t, p, kids')

/-- ReaderParser.cpp:13 with LogParser.cpp:30-37: the same constructor of `ReaderParser`; `src` is what its default reader holds (Reader.hpp). -/
def ReaderParser.ofFile {σ : Type} (E : SchemaEnv) (kids : Nat) (fs : Option (List Nat)) (addr : Nat → Nat) (mem : Mem) (inStatic outStatic : Nat) (src : σ) :
    Except Fail (ParserTables × ReaderParser σ × Nat) :=
  match trySchemaFile E kids fs with
  | .error e => .error e
  | .ok (a, kids') =>
    match buildLexer a addr with
    | .error e => .error e
    | .ok (t, _) =>
      match ReaderParser.new a addr mem inStatic outStatic src with
      | .error e => .error e
      | .ok p => .ok (t, p, kids')

end LogSurgeon
