import Verif.Proofs.SchemaLexemes
open LogSurgeon Grammar
def g := schemaGrammar schemaSpecials
def nts : List Nat := ((g.prods.map (·.head)).eraseDups)
def o : Orders := ⟨nts, fun s => List.range s.length⟩
def T := match g.lr0Sets o 100000 with | .ok t => t | _ => {}
def F := match g.firstSets 100000 with | .ok t => t | _ => {}
def N0 : List String := (List.range g.symbolId.length).map fun i => ((g.symbolId.find? fun x => x.2 == i).map (·.1)).getD ""
def DD0 : List (String × List String) := (("$START_PRIME", ["Schema"]) :: schemaProductions schemaSpecials).eraseDups
def ix (s : String) : Nat := N0.idxOf s
def P : List (Nat × List Nat) := DD0.map fun d => (ix d.1, d.2.map ix)
def rho (p : Nat) : Nat := DD0.idxOf (g.decls[p]?.getD ("", []))
def mask (l : List Nat) : Nat := l.foldl (fun m i => m ||| (1 <<< i)) 0
def terms := mask g.terminals
def nsym := N0.length
def starts : List (List Nat) := (List.range nsym).map fun s => (List.range P.length).filter fun p => (P[p]?.map (·.1)) == some s
def null := mask F.nullable
def first : List Nat := (List.range nsym).map fun s => mask (mget F.firsts s)
-- follow
def after (fo : Array Nat) (h x : Nat) : List Nat → Nat
  | [] => fo[h]!
  | s :: ss => (first[s]?.getD 0) ||| (if null.testBit s then after fo h x ss else 0)
def walk (h : Nat) : List Nat → Array Nat → Array Nat
  | [], fo => fo
  | s :: ss, fo => walk h ss (if terms.testBit s then fo else fo.set! s (fo[s]! ||| after fo h s ss))
def rnd (fo : Array Nat) : Array Nat := P.foldl (fun fo p => walk p.1 p.2 fo) fo
def follow : List Nat := ((List.range 60).foldl (fun fo _ => rnd fo) ((Array.replicate nsym 0).set! (ix "$START_PRIME") 1)).toList
def overlap (a b : List Range) : Bool := a.any fun r => b.any fun s => r.1 ≤ s.2 && s.1 ≤ r.2
def beside : List (Nat) := N0.map fun s => mask ((charToks.filter (fun x => x.1 != s && charToks.any fun y => y.1 == s && overlap x.2 y.2)).map fun x => ix x.1)
def states : List (List (Nat × Nat) × List (Nat × Nat)) := T.sets.zipIdx.map fun x =>
  (x.1.2.map fun it => (rho it.prod, it.dot), (T.goTo.filter (fun e => e.1.1 == x.2)).map fun e => (e.1.2, e.2))
#eval N0.length
#eval (DD0.eraseDups.length, DD0.length, P.length)
#eval (states.map (·.1.length)).sum
def body : String := s!"import Verif.Proofs.LalrCert
/-
Generated: a certificate for the grammar of schema files (see Proofs/LalrCert.lean).  The names of its symbols, its productions on numbers,
the sets of item sets, FIRST and FOLLOW.  Nothing here is trusted: `Cert.check` decides.
-/
namespace LogSurgeon

def certNames : List String := {reprStr N0}

def certProds : List (Nat × List Nat) := {reprStr P}

def certStarts : List (List Nat) := {reprStr starts}

def certFirst : List Nat := {reprStr first}

def certFollow : List Nat := {reprStr follow}

def certBeside : List Nat := {reprStr beside}

def certStates : List (List (Nat × Nat) × List (Nat × Nat)) := {reprStr states}

def schemaTables : Grammar.Cert where
  prods := certProds
  terms := {terms}
  starts := certStarts
  null := {null}
  first := certFirst
  follow := certFollow
  beside := certBeside
  states := certStates
  fin := 0

end LogSurgeon
"
#eval IO.FS.writeFile "/verif/lean/Verif/Proofs/LalrCertData.lean" body
