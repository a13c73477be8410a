import Verif.Spec.LogEvent
/-
What the deep copy of an event shows.
-/
namespace LogSurgeon

/-- What can be seen of a token of the text `s`: its types and its text. -/
def PTok.shown (s : List Nat) (x : PTok) : Option (List Nat) × Option (List Nat) := (some x.ty, some (x.text s))

/-- What the copy `c` of the event `e` of the text `s` shows in a memory `m` that has the buffer of the copy.  With a timestamp,
everything the event shows.  Without, the copy's own text and tokens lack the first token of the event (the tokens are written from
slot 0 on, but read from slot 1 on), and so does its logtype, while the list of the tokens of a type still has it. -/
structure EventView.CopyShows (m : Mem) (names : Nat → Option String) (c : EventView) (s : List Nat) (e : PEvent) : Prop where
  tokens : c.tokens.map (Token.seen m) = (if e.ts then e.toks else e.toks.tail).map (PTok.shown s)
  text : c.toString m = some ((if e.ts then e.toks else e.toks.tail).flatMap (PTok.text s))
  timestamp : c.getTimestamp.map (Token.seen m) = (if e.ts then e.toks.head? else none).map (PTok.shown s)
  multiline : c.multiline = true ↔ e.multiline s
  vars : ∀ id, (c.occ id).map (fun i => (c.out.get i).seen m) = (e.toks.filter fun x => x.kind == id).map (PTok.shown s)
  logtype : c.getLogtype m names = .ok (e.toks.tail.flatMap (PTok.logtype s names))

end LogSurgeon
