/-
Model of the header rules applied to subgraph requests: engine/src/execution/request/header_rule.rs:9-191,
their two uses in engine/src/execution/request/mod.rs:118-123 and engine/src/execution/operation/context.rs:34-46,
and the clean-up after the authorization extensions in
engine/src/prepare/operation_plan/query_modifications.rs:187-194.

A header map is the list of its (name, value) pairs. Names in rules are `none` when they are not valid header
names, and lower case otherwise (`HeaderName::from_str`); likewise `none` for invalid values. A pattern is a
predicate on names.
-/
namespace Verif.HeaderRules

abbrev Name := String
abbrev Value := String
abbrev HeaderMap := List (Name × Value)

def HeaderMap.append (h : HeaderMap) (n : Name) (v : Value) : HeaderMap := h ++ [(n, v)]
def HeaderMap.remove (h : HeaderMap) (n : Name) : HeaderMap := h.filter (fun p => p.1 != n)
def HeaderMap.insert (h : HeaderMap) (n : Name) (v : Value) : HeaderMap := (h.remove n).append n v
def HeaderMap.getAll (h : HeaderMap) (n : Name) : List Value := (h.filter (fun p => p.1 == n)).map (·.2)

/-- `DENY_LIST`, lines 162-189. -/
def denyList : List Name :=
  ["accept", "accept-charset", "accept-encoding", "accept-ranges", "content-length", "content-type",
   "connection", "keep-alive", "proxy-authenticate", "proxy-authorization", "te", "trailer",
   "transfer-encoding", "upgrade", "origin", "host", "sec-websocket-version", "sec-websocket-key",
   "sec-websocket-accept", "sec-websocket-protocol", "sec-websocket-extensions"]

/-- `is_header_denied`, lines 157-159. -/
def isHeaderDenied (n : Name) : Bool := denyList.any (· == n)

inductive NameOrPattern where
  | name (n : Option Name)
  | pattern (p : Name → Bool)

/-- `HeaderRuleVariant`. The `rename` of a forward rule: absent, or a possibly invalid name. -/
inductive Rule where
  | forward (name : NameOrPattern) (default : Option Value) (rename : Option (Option Name))
  | insert (name : Option Name) (value : Option Value)
  | remove (name : NameOrPattern)
  | renameDuplicate (name : Option Name) (default : Option Value) (rename : Option Name)

/-- `handle_rename_duplicate`, lines 30-57. -/
def handleRenameDuplicate (gateway : HeaderMap) (name : Option Name) (default : Option Value)
    (rename : Option Name) (h : HeaderMap) : HeaderMap :=
  match name with
  | none => h
  | some name =>
    match rename with
    | none => h
    | some rename =>
      if isHeaderDenied rename then h
      else
        match (gateway.getAll name).head?.or default with
        | some value => (h.append name value).append rename value
        | none => h

/-- `handle_remove`, lines 59-77. -/
def handleRemove (name : NameOrPattern) (h : HeaderMap) : HeaderMap :=
  match name with
  | .pattern p => ((h.map (·.1)).filter p).foldl HeaderMap.remove h
  | .name (some n) => h.remove n
  | .name none => h

/-- `handle_insert`, lines 79-90. -/
def handleInsert (name : Option Name) (value : Option Value) (h : HeaderMap) : HeaderMap :=
  match name, value with
  | some n, some v => if isHeaderDenied n then h else h.append n v
  | _, _ => h

/-- `handle_forward`, lines 92-155. -/
def handleForward (gateway : HeaderMap) (name : NameOrPattern) (default : Option Value)
    (rename : Option (Option Name)) (h : HeaderMap) : HeaderMap :=
  match name with
  | .pattern p =>
    let filtered := (gateway.filter fun q => !isHeaderDenied q.1).filter fun q => p q.1
    filtered.foldl (fun h q =>
      match rename.bind id with
      | some r => h.append r q.2
      | none => h.append q.1 q.2) h
  | .name none => h
  | .name (some n) =>
    let h := h.remove n
    let found := gateway.getAll n
    match rename with
    | some none => h
    | _ =>
      let n := (rename.bind id).getD n
      if isHeaderDenied n then h
      else
        let h' := found.foldl (fun h v => h.append n v) h
        match default with
        | some v => if found.isEmpty then h'.insert n v else h'
        | none => h'

/-- `apply_header_rules`, lines 9-28. -/
def applyHeaderRules (gateway : HeaderMap) (rules : List Rule) (h : HeaderMap) : HeaderMap :=
  rules.foldl (fun h r =>
    match r with
    | .forward n d r => handleForward gateway n d r h
    | .insert n v => handleInsert n v h
    | .remove n => handleRemove n h
    | .renameDuplicate n d r => handleRenameDuplicate gateway n d r h) h

/-- query_modifications.rs:187-194: denied headers set by an authorization extension are removed. -/
def stripDenied (h : HeaderMap) : HeaderMap :=
  ((h.map (·.1)).filter isHeaderDenied).foldl HeaderMap.remove h

/-- Headers of a subgraph request before the gateway adds its own: default rules, then what an authorization
extension made of them (if there is one), then the subgraph's rules. -/
def subgraphHeaders (gateway : HeaderMap) (defaultRules : List Rule) (extension : Option HeaderMap)
    (subgraphRules : List Rule) : HeaderMap :=
  let dflt := applyHeaderRules gateway defaultRules []
  let base := match extension with
    | some h => stripDenied h
    | none => dflt
  applyHeaderRules gateway subgraphRules base

end Verif.HeaderRules
