import Verif.Model.Lalr
/-
Model of the messages about conflicts, LALR1Parser.tpp:434-519: the generator once more, with the text of the exception.
-/
namespace LogSurgeon
namespace Grammar

/-- How generation can end without a table: as in `generate`, or with the message about a conflict. -/
inductive Halt where
  | fail (e : Fail)
  | conflict (msg : String)
deriving Repr, DecidableEq

/-- `m_lexer.m_id_symbol[id]` (empty if there is none). -/
def symName (g : Grammar) (id : Nat) : String := ((g.symbolId.find? fun p => p.2 == id).map (·.1)).getD ""

/-- LALR1Parser.tpp:467-472, 487-491, 499-505: a production. -/
def prodText (g : Grammar) (p : Nat) : String :=
  g.symName (g.head p) ++ "-> {" ++ (g.body p).foldl (fun acc s => acc ++ (g.symName s ++ ",")) "" ++ "}"

/-- LALR1Parser.tpp:440-517: one item of the closure.  The message about a shift reads `m_index` through `m_next[...]` (457-459) and through the
entry (462, 495), which may be null pointers. -/
def setActionM (g : Grammar) (next : Nat → Option Nat) (acts : List Action) (it : Item) : Except Halt (List Action) :=
  match (g.body it.prod)[it.dot]? with
  | some s =>
    if !g.isToken s && (g.prodsOf s).isEmpty then .ok acts
    else
      match acts[s]? with
      | none => .error (.fail .ub)
      | some (.flag _) => .ok (acts.set s (.shift (next s)))
      | some (.shift x) =>
        if x = next s then .ok acts
        else
          match next s, x with
          | some n, some m => .error (.conflict ("For symbol " ++ g.symName s ++ ", adding shift to " ++ toString n ++ " causes shift-shift conflict with shift to " ++ toString m ++ "\n"))
          | _, _ => .error (.fail .ub)
      | some (.reduce p) =>
        match next s with
        | some n => .error (.conflict ("For symbol " ++ g.symName s ++ ", adding shift to " ++ toString n ++ " causes shift-reduce conflict with reduction " ++ g.prodText p ++ "\n"))
        | none => .error (.fail .ub)
  | none =>
    if it.prod = g.root then
      if tokenEnd < acts.length then .ok (acts.set tokenEnd (.flag true)) else .error (.fail .ub)
    else
      match acts[it.la]? with
      | none => .error (.fail .ub)
      | some (.flag _) => .ok (acts.set it.la (.reduce it.prod))
      | some (.shift x) =>
        match x with
        | some n => .error (.conflict ("For symbol " ++ g.symName it.la ++ ", adding reduction " ++ g.prodText it.prod ++ " causes shift-reduce conflict with shift to " ++ toString n ++ "\n"))
        | none => .error (.fail .ub)
      | some (.reduce p) => .error (.conflict ("For symbol " ++ g.symName it.la ++ ", adding reduction " ++ g.prodText it.prod ++ " causes reduce-reduce conflict with reduction " ++ g.prodText p ++ "\n"))

/-- LALR1Parser.tpp:440-517: the loop over the closure. -/
def setActionsM (g : Grammar) (next : Nat → Option Nat) : List Item → List Action → Except Halt (List Action)
  | [], acts => .ok acts
  | it :: its, acts =>
    match g.setActionM next acts it with
    | .error e => .error e
    | .ok acts => g.setActionsM next its acts

/-- LALR1Parser.tpp:434-519 `generate_lalr1_action`. -/
def actionTableM (g : Grammar) (t : LR0) (sets : List LR1Set) : List LR1Set → Except Halt (List (Nat × List Action))
  | [] => .ok []
  | s :: ss =>
    match g.setActionsM (nextSet t sets s.index) s.closure (List.replicate g.symbolId.length (.flag false)) with
    | .error e => .error e
    | .ok acts =>
      match g.actionTableM t sets ss with
      | .error e => .error e
      | .ok rest => .ok ((s.index, acts) :: rest)

/-- LALR1Parser.tpp:154-161 `generate`, with the messages about conflicts.  `visit`: the order in which the item sets are visited (435; in the
code by kernel), on which it depends which of several conflicts is reported. -/
def generateM (g : Grammar) (o : Orders) (visit : List LR1Set → List LR1Set) (fuel : Nat) : Except Halt Table :=
  if g.prods.isEmpty then .error (.fail .throws)
  else
    match g.lr0Sets o fuel with
    | .error e => .error (.fail e)
    | .ok t =>
      match g.firstSets fuel with
      | .error e => .error (.fail e)
      | .ok f =>
        let order := o.sets (t.sets.map (·.1))
        let items := order.flatMap fun i => (t.sets[i]?.map (·.1)).getD []
        match g.laMaps f fuel items {} with
        | .error e => .error (.fail e)
        | .ok m =>
          match Las.loop m fuel { las := items.foldl (initLas g m) [] } with
          | .error e => .error (.fail e)
          | .ok l =>
            match lr1Sets g f fuel t l.las order [] with
            | .error e => .error (.fail e)
            | .ok sets =>
              match g.actionTableM t sets (visit sets) with
              | .error e => .error e
              | .ok acts => .ok { root := g.rootSet t order, actions := acts }

end Grammar
end LogSurgeon
