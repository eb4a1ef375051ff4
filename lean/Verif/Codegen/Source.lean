import Verif.Storage.Lemmas
import Mathlib.Data.Rat.Defs

/-!
# The source terms: from the names of the conserved moments to the array of the moments

A source term is given as an expression in the conserved moments, `{U: MU * U * (1 - U)}`. The generated kernel has an
array `m` instead, and the expression is translated through its text (algorithm/transform.py 18-84): it is printed,
cut into tokens, the names of the conserved moments are replaced by accesses `m[k, ix_, iy_, ]`, and the result is read
again by SymPy, in a dictionary of local names (algorithm/base.py 451-484).

Modelled: the loop on the tokens, the reordering of the indices, the dictionary of local names with its changes from one
source term to the next. The text of the expression (SymPy `str`) and its cutting into tokens are inputs: the hypothesis
is that the text reads as the expression. The transformations which SymPy applies before (`auto_symbol`, `auto_number`)
leave the names of the dictionary of locals and surround the numbers by a call with one argument; they are left out.
-/

namespace Pylbm.Source

open Pylbm Storage StorageSpec

/-- The tokens; a number is given with its value. `fin` is the end marker of the tokenizer. -/
inductive Tok
  | name (s : String)
  | lit (q : ℚ)
  | lb | rb | lp | rp | comma | add | sub | mul | div | pow
  | fin
  deriving DecidableEq

/-- What the dictionary of locals holds (base.py 455-484, transform.py 77-79): the array of the moments (an
`IndexedBase`, or the local matrix of the moments), the numbers of the conserved moments, the storage order, the default
index, a symbol, an index of the loops (`Idx`, with its axis). -/
inductive Obj
  | base
  | dict (d : List (String × Nat))
  | order (o : Option (List Nat))
  | index (l : List Tok)
  | sym (s : String)
  | idx (i : Nat)

/-- A dictionary: the first entry of a key is the one in force. -/
abbrev Locals := List (String × Obj)

/-- `[array[p] for p in ps]`; `none` for an `IndexError`. -/
def pick {α : Type} (l : List α) : List Nat → Option (List α)
  | [] => some []
  | p :: ps => match l[p]?, pick l ps with
    | some x, some xs => some (x :: xs)
    | _, _ => none

/-- `set_order`, symbolic.py 104-110: no change without priority; `none` for an `IndexError`. -/
def setOrder? {α : Type} (l : List α) : Option (List Nat) → Option (List α)
  | none => some l
  | some [] => some l
  | some (p :: ps) => pick l (argsort (p :: ps))

/-- `token[1] in local_dict["consm"].keys()`, transform.py 34 and 38, 51: the number of a conserved moment; the outer
`none` is an exception (`consm` is not a dictionary any more). -/
def conserved (L : Locals) : Tok → Option (Option Nat)
  | .name s => match L.lookup "consm" with
    | some (.dict d) => some (d.lookup s)
    | _ => none
  | _ => some none

/-- `local_dict["sorder"]`; an object of another kind makes `set_order` fail. -/
def orderOf (L : Locals) : Option (Option (List Nat)) :=
  match L.lookup "sorder" with
  | some (.order o) => some o
  | _ => none

/-- `local_dict["default_index"]`, added to a list in transform.py 51-53. -/
def indexOf (L : Locals) : Option (List Tok) :=
  match L.lookup "default_index" with
  | some (.index l) => some l
  | _ => none

/-- The tokens put in place of a name without index, transform.py 49-63. -/
def bare (L : Locals) (k : Nat) : Option (List Tok) :=
  match indexOf L, orderOf L with
  | some l, some o => match setOrder? (.lit k :: l) o with
    | some idx => some (.name "m" :: .lb :: (idx.flatMap (fun t => [t, .comma]) ++ [.rb]))
    | none => none
  | _, _ => none

/-- `reorder`, transform.py 18-25. -/
def reorder (L : Locals) (stks : List (List Tok)) : Option (List Tok) :=
  match orderOf L with
  | some o => match setOrder? stks o with
    | some l => some (l.flatMap (fun a => a ++ [.comma]))
    | none => none
  | none => none

/-- Where the loop of `transform_expr` is: outside, or between the brackets which follow a conserved moment, with the
stacks filled so far (transform.py 38-46). -/
inductive Mode
  | out
  | idx (done : List (List Tok)) (cur : List Tok)

/-- `transform_expr`, transform.py 28-71; `none` for an exception. The last token is copied. -/
def go (L : Locals) : Mode → List Tok → Option (List Tok)
  | .out, [] => some []
  | .out, [t] => some [t]
  | .out, t :: n :: r =>
    match conserved L t with
    | none => none
    | some none => (go L .out (n :: r)).map (t :: ·)
    | some (some k) =>
      if n = .lb then (go L (.idx [[.lit k]] []) r).map ([.name "m", .lb] ++ ·)
      else match bare L k with
        | some b => (go L .out (n :: r)).map (b ++ ·)
        | none => none
  | .idx _ _, [] => none
  | .idx done cur, t :: r =>
    if t = .rb then
      match reorder L (done ++ [cur]) with
      | some b => (go L .out r).map (b ++ .rb :: ·)
      | none => none
    else if t = .comma then go L (.idx (done ++ [cur]) []) r
    else go L (.idx done (cur ++ [t])) r

/-- transform.py 76-78: the symbols of the expression are put in the dictionary, which is the caller's. -/
def addSymbols (L : Locals) (syms : List String) : Locals :=
  syms.foldl (fun L s => (s, .sym s) :: L) L

/-- `parse_expr`, transform.py 74-84, up to the tokens given to SymPy: the symbols of the expression and its text. The
dictionary is returned with the tokens since it is used again for the next source term. -/
def parseExpr (L : Locals) (syms : List String) (text : List Tok) : Option (Locals × List Tok) :=
  (go (addSymbols L syms) .out text).map fun t => (addSymbols L syms, t)

/-- The loop on the source terms, base.py 486-491, with one dictionary for all. -/
def sourceTexts (L : Locals) : List (List String × List Tok) → Option (List (Locals × List Tok))
  | [] => some []
  | (syms, text) :: l => match parseExpr L syms text with
    | some r => (sourceTexts r.1 l).map (r :: ·)
    | none => none

/-- `indices_str`, base.py 464. -/
def indexStr (i : Nat) : String := if i = 0 then "ix_" else if i = 1 then "iy_" else "iz_"

/-- `m[0].indices`, with `space` the axes of the space indices of the kernel (symbolic.py 195-197); `none` for the
velocity index. -/
def momentIndices (sorder : List Nat) (space : List Nat) : List (Option Nat) :=
  setOrder (none :: space.map some) sorder

/-- `indices`, base.py 467-468: `m[0].indices[s]` for `s` in `sorder[1:]`. -/
def indices (sorder : List Nat) (space : List Nat) : List Nat :=
  sorder.tail.filterMap fun s => ((momentIndices sorder space)[s]?).join

/-- The dictionary of locals, base.py 475-484. -/
def fullLocals (d : List (String × Nat)) (sorder : List Nat) (space : List Nat) : Locals :=
  ((indices sorder space).zipIdx.map fun p => (indexStr p.2, .idx p.1)) ++
    [("m", .base), ("consm", .dict d), ("sorder", .order (some sorder)),
      ("default_index", .index ((indices sorder space).map fun i => .name (indexStr i)))]

/-- The dictionary of locals when the moments are local to the loop, base.py 456-461. -/
def localLocals (d : List (String × Nat)) : Locals :=
  [("m", .base), ("consm", .dict d), ("sorder", .order none), ("default_index", .index [.lit 0])]

/-! ## The reading of a text -/

/-- The operations. -/
structure Sem (V : Type) where
  lit : ℚ → V
  add : V → V → V
  sub : V → V → V
  mul : V → V → V
  div : V → V → V
  pow : V → V → V
  neg : V → V
  fn : String → List V → V

/-- What the names mean: values, arrays. Restrictions on the texts: `arg` for an index, `callee` for the name of a
function, `trailing` allows a comma at the end of the indices. -/
structure Lang (V : Type) where
  var : String → Option V
  sub : String → List V → Option V
  arg : List Tok → Prop
  callee : String → Prop
  trailing : Prop

inductive Cat
  | sum | term | factor | power | atom | args | idx

/-- `Reads S N c t vs`: the text `t` is of the category `c` of the grammar of Python and its value is `vs` (several
values for the arguments of a call and the indices of an array). -/
inductive Reads {V : Type} (S : Sem V) (N : Lang V) : Cat → List Tok → List V → Prop
  | sumTerm {t v} : Reads S N .term t [v] → Reads S N .sum t [v]
  | sumAdd {a b x y} : Reads S N .sum a [x] → Reads S N .term b [y] → Reads S N .sum (a ++ .add :: b) [S.add x y]
  | sumSub {a b x y} : Reads S N .sum a [x] → Reads S N .term b [y] → Reads S N .sum (a ++ .sub :: b) [S.sub x y]
  | termFactor {t v} : Reads S N .factor t [v] → Reads S N .term t [v]
  | termMul {a b x y} : Reads S N .term a [x] → Reads S N .factor b [y] → Reads S N .term (a ++ .mul :: b) [S.mul x y]
  | termDiv {a b x y} : Reads S N .term a [x] → Reads S N .factor b [y] → Reads S N .term (a ++ .div :: b) [S.div x y]
  | neg {a x} : Reads S N .factor a [x] → Reads S N .factor (.sub :: a) [S.neg x]
  | factorPower {t v} : Reads S N .power t [v] → Reads S N .factor t [v]
  | powerAtom {t v} : Reads S N .atom t [v] → Reads S N .power t [v]
  | pow {a b x y} : Reads S N .atom a [x] → Reads S N .factor b [y] → Reads S N .power (a ++ .pow :: b) [S.pow x y]
  | lit (q : ℚ) : Reads S N .atom [.lit q] [S.lit q]
  | name (s : String) {v} : N.var s = some v → Reads S N .atom [.name s] [v]
  | paren {a x} : Reads S N .sum a [x] → Reads S N .atom (.lp :: (a ++ [.rp])) [x]
  | call (s : String) {a xs} : N.callee s → Reads S N .args a xs →
      Reads S N .atom (.name s :: .lp :: (a ++ [.rp])) [S.fn s xs]
  | item (s : String) {a xs v} : Reads S N .idx a xs → N.sub s xs = some v →
      Reads S N .atom (.name s :: .lb :: (a ++ [.rb])) [v]
  | argsOne {a x} : Reads S N .sum a [x] → Reads S N .args a [x]
  | argsCons {a b x xs} : Reads S N .sum a [x] → Reads S N .args b xs → Reads S N .args (a ++ .comma :: b) (x :: xs)
  | idxOne {a x} : Reads S N .sum a [x] → N.arg a → Reads S N .idx a [x]
  | idxCons {a b x xs} : Reads S N .sum a [x] → N.arg a → Reads S N .idx b xs →
      Reads S N .idx (a ++ .comma :: b) (x :: xs)
  | idxTrail {a xs} : N.trailing → Reads S N .idx a xs → Reads S N .idx (a ++ [.comma]) xs

/-- The values: those of the symbols, of the names known to SymPy, the indices of the cell, the moments as functions of
their number and of the place, and the array of the moments. -/
structure World (V : Type) where
  sem : Sem V
  val : String → V
  glob : String → Option V
  here : List V
  fld : Nat → List V → V
  mem : List V → Option V

/-- The symbols `ix`, `iy`, `iz` and `ix_`, `iy_`, `iz_` (symbolic.py 20-25), which stand for the indices of the cell
(`ind_to_subs`, base.py 469-474 and 493). -/
def axisOf (s : String) : Option Nat :=
  if s = "ix" ∨ s = "ix_" then some 0 else if s = "iy" ∨ s = "iy_" then some 1
  else if s = "iz" ∨ s = "iz_" then some 2 else none

/-- The value of a symbol: an index of the cell, or a free value. -/
def World.symVal {V : Type} (W : World V) (s : String) : V :=
  match axisOf s with
  | some i => (W.here[i]?).getD (W.val s)
  | none => W.val s

/-- How SymPy reads the transformed text: names are looked up in the dictionary of locals, then in SymPy. -/
def codeLang {V : Type} (W : World V) (L : Locals) : Lang V where
  var s := match L.lookup s with
    | some (.sym s') => some (W.symVal s')
    | some (.idx i) => W.here[i]?
    | some _ => none
    | none => W.glob s
  sub s vs := match L.lookup s with
    | some .base => W.mem vs
    | _ => none
  arg _ := True
  callee _ := True
  trailing := True

/-! ## Specification -/

/-- The indices of a source term which are understood: no comma, bracket or conserved moment inside. -/
def Plain (d : List (String × Nat)) (a : List Tok) : Prop :=
  ∀ t ∈ a, t ≠ .comma ∧ t ≠ .lb ∧ t ≠ .rb ∧ ∀ s, t = .name s → d.lookup s = none

/-- How the user reads a source term: a conserved moment is its value in the cell, or in the cell of its indices; the
other names are the symbols of the expression or the names of SymPy. -/
def userLang {V : Type} (W : World V) (d : List (String × Nat)) (syms : List String) : Lang V where
  var s := match d.lookup s with
    | some k => some (W.fld k W.here)
    | none => if s ∈ syms then some (W.symVal s) else W.glob s
  sub s vs := match d.lookup s with
    | some k => if vs.length = W.here.length then some (W.fld k vs) else none
    | none => none
  arg := Plain d
  callee s := d.lookup s = none
  trailing := False

/-- `a` is the index list of `l` in the storage: the axis `i` is on the place `sorder[i]`. -/
def Placed {α : Type} (sorder : List Nat) (l a : List α) : Prop :=
  a.length = sorder.length ∧ ∀ i (hi : i < sorder.length), a[sorder[i]]? = l[i]?

/-- The array of the moments holds the moments. -/
def Holds {V : Type} (W : World V) (sorder : List Nat) : Prop :=
  ∀ (k : Nat) (vs : List V), vs.length = W.here.length → ∀ a, Placed sorder (W.sem.lit k :: vs) a →
    W.mem a = some (W.fld k vs)

/-- The keys of the dictionary which the code uses itself. -/
def reserved : List String := ["m", "consm", "sorder", "default_index"]

/-! ## Lemmas -/

variable {V : Type}

theorem go_copy (L : Locals) (t n : Tok) (r : List Tok) (h : conserved L t = some none) :
    go L .out (t :: n :: r) = (go L .out (n :: r)).map (t :: ·) := by
  simp only [go, h]

/-- What the transformation of a text does, when something follows. -/
def Through (S : Sem V) (L : Locals) (N : Lang V) (c : Cat) (t : List Tok) (vs : List V) : Prop :=
  ∀ n r, n ≠ Tok.lb → ∃ t', go L .out (t ++ n :: r) = (go L .out (n :: r)).map (t' ++ ·) ∧ Reads S N c t' vs

theorem map_map_append (o : Option (List Tok)) (a b : List Tok) :
    (o.map (b ++ ·)).map (a ++ ·) = o.map ((a ++ b) ++ ·) := by
  cases o <;> simp

theorem map_map_cons (o : Option (List Tok)) (a : Tok) (b : List Tok) :
    (o.map (b ++ ·)).map (a :: ·) = o.map ((a :: b) ++ ·) := by
  cases o <;> simp

theorem through_binary {S : Sem V} {L : Locals} {N : Lang V} {c c1 c2 : Cat} {a b : List Tok} {x y w : List V} {op : Tok}
    (hop : op ≠ .lb) (hc : conserved L op = some none)
    (h1 : Through S L N c1 a x) (h2 : Through S L N c2 b y) (hb : b ≠ [])
    (hr : ∀ a' b', Reads S N c1 a' x → Reads S N c2 b' y → Reads S N c (a' ++ op :: b') w) :
    Through S L N c (a ++ op :: b) w := by
  intro n r hn
  obtain ⟨b', e2, r2⟩ := h2 n r hn
  obtain ⟨a', e1, r1⟩ := h1 op (b ++ n :: r) hop
  refine ⟨a' ++ op :: b', ?_, hr _ _ r1 r2⟩
  have e3 : go L .out (op :: (b ++ n :: r)) = (go L .out (n :: r)).map ((op :: b') ++ ·) := by
    obtain ⟨b0, bs, rfl⟩ := List.exists_cons_of_ne_nil hb
    rw [List.cons_append, go_copy L op _ _ hc, ← List.cons_append, e2, map_map_cons]
  rw [show (a ++ op :: b) ++ n :: r = a ++ op :: (b ++ n :: r) by simp, e1, e3, map_map_append]

theorem reads_ne_nil {S : Sem V} {N : Lang V} {c : Cat} {t : List Tok} {vs : List V} (h : Reads S N c t vs) : t ≠ [] := by
  induction h <;> simp_all

/-- Between the brackets. -/
theorem go_idx_plain (L : Locals) (a : List Tok) (h : ∀ t ∈ a, t ≠ .comma ∧ t ≠ .rb) :
    ∀ (done : List (List Tok)) (cur : List Tok) (r : List Tok),
      go L (.idx done cur) (a ++ r) = go L (.idx done (cur ++ a)) r := by
  induction a with
  | nil => simp
  | cons t a ih =>
    intro done cur r
    obtain ⟨h1, h2⟩ := h t (by simp)
    rw [List.cons_append, go, if_neg h2, if_neg h1, ih (fun t ht => h t (by simp [ht]))]
    simp

/-- What the code must provide for the user's reading to be kept. -/
structure Faithful (S : Sem V) (L : Locals) (d : List (String × Nat)) (U N : Lang V) (text : List Tok) : Prop where
  cons : ∃ o, L.lookup "consm" = some (.dict o) ∧ o = d
  arg : ∀ a, U.arg a → Plain d a
  callee : ∀ s, U.callee s → d.lookup s = none
  trailing : ¬ U.trailing
  var : ∀ s v, Tok.name s ∈ text → d.lookup s = none → U.var s = some v → N.var s = some v
  free : N.callee = (fun _ => True) ∧ N.arg = (fun _ => True)
  only : ∀ s vs v, U.sub s vs = some v → ∃ k, d.lookup s = some k
  bare : ∀ s k v, d.lookup s = some k → U.var s = some v → ∃ b, bare L k = some b ∧ Reads S N .atom b [v]
  item : ∀ s k as vs v, d.lookup s = some k → U.sub s vs = some v →
    List.Forall₂ (fun a x => Reads S N .sum a [x]) as vs →
    ∃ b, reorder L ([.lit k] :: as) = some b ∧ Reads S N .atom (.name "m" :: .lb :: (b ++ [.rb])) [v]

theorem conserved_eq {L : Locals} {d : List (String × Nat)} (h : ∃ o, L.lookup "consm" = some (.dict o) ∧ o = d)
    (s : String) : conserved L (.name s) = some (d.lookup s) := by
  obtain ⟨o, h, rfl⟩ := h
  simp [conserved, h]

theorem conserved_op {L : Locals} {t : Tok} (h : ∀ s, t ≠ .name s) : conserved L t = some none := by
  cases t <;> simp_all [conserved]

/-- A text without conserved moment is read as it is. -/
theorem reads_same {S : Sem V} {L : Locals} {d : List (String × Nat)} {U N : Lang V} {text : List Tok}
    (H : Faithful S L d U N text) {c : Cat} {t : List Tok} {vs : List V} (h : Reads S U c t vs) :
    (∀ x ∈ t, x ∈ text) → (∀ s, Tok.name s ∈ t → d.lookup s = none) → Reads S N c t vs := by
  induction h with
  | sumTerm _ ih => intro hm hn; exact .sumTerm (ih hm hn)
  | sumAdd _ _ ih1 ih2 =>
    intro hm hn
    exact .sumAdd (ih1 (fun x hx => hm x (by simp [hx])) fun s hs => hn s (by simp [hs]))
      (ih2 (fun x hx => hm x (by simp [hx])) fun s hs => hn s (by simp [hs]))
  | sumSub _ _ ih1 ih2 =>
    intro hm hn
    exact .sumSub (ih1 (fun x hx => hm x (by simp [hx])) fun s hs => hn s (by simp [hs]))
      (ih2 (fun x hx => hm x (by simp [hx])) fun s hs => hn s (by simp [hs]))
  | termFactor _ ih => intro hm hn; exact .termFactor (ih hm hn)
  | termMul _ _ ih1 ih2 =>
    intro hm hn
    exact .termMul (ih1 (fun x hx => hm x (by simp [hx])) fun s hs => hn s (by simp [hs]))
      (ih2 (fun x hx => hm x (by simp [hx])) fun s hs => hn s (by simp [hs]))
  | termDiv _ _ ih1 ih2 =>
    intro hm hn
    exact .termDiv (ih1 (fun x hx => hm x (by simp [hx])) fun s hs => hn s (by simp [hs]))
      (ih2 (fun x hx => hm x (by simp [hx])) fun s hs => hn s (by simp [hs]))
  | neg _ ih =>
    intro hm hn
    exact .neg (ih (fun x hx => hm x (by simp [hx])) fun s hs => hn s (by simp [hs]))
  | factorPower _ ih => intro hm hn; exact .factorPower (ih hm hn)
  | powerAtom _ ih => intro hm hn; exact .powerAtom (ih hm hn)
  | pow _ _ ih1 ih2 =>
    intro hm hn
    exact .pow (ih1 (fun x hx => hm x (by simp [hx])) fun s hs => hn s (by simp [hs]))
      (ih2 (fun x hx => hm x (by simp [hx])) fun s hs => hn s (by simp [hs]))
  | lit q => intro _ _; exact .lit q
  | name s hv => intro hm hn; exact .name s (H.var s _ (hm _ (by simp)) (hn s (by simp)) hv)
  | paren _ ih =>
    intro hm hn
    exact .paren (ih (fun x hx => hm x (by simp [hx])) fun s hs => hn s (by simp [hs]))
  | call s _ _ ih =>
    intro hm hn
    exact .call s (by rw [H.free.1]; trivial)
      (ih (fun x hx => hm x (by simp [hx])) fun s hs => hn s (by simp [hs]))
  | item s _ hv _ =>
    intro _ hn
    obtain ⟨k, hk⟩ := H.only s _ _ hv
    rw [hn s (by simp)] at hk
    simp at hk
  | argsOne _ ih => intro hm hn; exact .argsOne (ih hm hn)
  | argsCons _ _ ih1 ih2 =>
    intro hm hn
    exact .argsCons (ih1 (fun x hx => hm x (by simp [hx])) fun s hs => hn s (by simp [hs]))
      (ih2 (fun x hx => hm x (by simp [hx])) fun s hs => hn s (by simp [hs]))
  | idxOne _ _ ih => intro hm hn; exact .idxOne (ih hm hn) (by rw [H.free.2]; trivial)
  | idxCons _ _ _ ih1 ih2 =>
    intro hm hn
    exact .idxCons (ih1 (fun x hx => hm x (by simp [hx])) fun s hs => hn s (by simp [hs]))
      (by rw [H.free.2]; trivial)
      (ih2 (fun x hx => hm x (by simp [hx])) fun s hs => hn s (by simp [hs]))
  | idxTrail h _ _ => exact absurd h H.trailing

/-- The indices of a conserved moment: the stacks are the texts between the commas. -/
theorem go_idx {S : Sem V} {L : Locals} {d : List (String × Nat)} {U N : Lang V} {text : List Tok}
    (H : Faithful S L d U N text) {c : Cat} {t : List Tok} {vs : List V} (h : Reads S U c t vs) :
    c = .idx → (∀ x ∈ t, x ∈ text) →
    ∃ as, List.Forall₂ (fun a x => Reads S N .sum a [x]) as vs ∧ ∀ done r,
      go L (.idx done []) (t ++ .rb :: r) =
        match reorder L (done ++ as) with
        | some b => (go L .out r).map (b ++ .rb :: ·)
        | none => none := by
  induction h with
  | @idxOne a x hs ha =>
    intro _ hm
    have hp := H.arg _ ha
    refine ⟨[a], .cons (reads_same H hs hm fun s hs' => (hp _ hs').2.2.2 s rfl) .nil, fun done r => ?_⟩
    rw [go_idx_plain L a (fun t ht => ⟨(hp t ht).1, (hp t ht).2.2.1⟩), go, if_pos rfl]
    simp
  | @idxCons a b x xs hs ha _ _ ih =>
    intro _ hm
    have hp := H.arg _ ha
    obtain ⟨as, hf, he⟩ := ih rfl (fun x hx => hm x (by simp [hx]))
    refine ⟨a :: as, .cons (reads_same H hs (fun x hx => hm x (by simp [hx])) fun s hs' => (hp _ hs').2.2.2 s rfl) hf,
      fun done r => ?_⟩
    rw [show (a ++ Tok.comma :: b) ++ Tok.rb :: r = a ++ (Tok.comma :: (b ++ Tok.rb :: r)) by simp,
      go_idx_plain L a (fun t ht => ⟨(hp t ht).1, (hp t ht).2.2.1⟩), go, if_neg (by simp), if_pos rfl, he]
    simp
  | idxTrail h _ _ => exact absurd h H.trailing
  | _ => intro h; simp at h

theorem through {S : Sem V} {L : Locals} {d : List (String × Nat)} {U N : Lang V} {text : List Tok}
    (H : Faithful S L d U N text) {c : Cat} {t : List Tok} {vs : List V} (h : Reads S U c t vs) :
    c ≠ .idx → (∀ x ∈ t, x ∈ text) → Through S L N c t vs := by
  induction h with
  | sumTerm _ ih =>
    intro _ hm n r hn
    obtain ⟨t', e, h⟩ := ih (by simp) hm n r hn
    exact ⟨t', e, .sumTerm h⟩
  | sumAdd _ h2 ih1 ih2 =>
    intro _ hm
    exact through_binary (by simp) (conserved_op (by simp)) (ih1 (by simp) fun x hx => hm x (by simp [hx]))
      (ih2 (by simp) fun x hx => hm x (by simp [hx])) (reads_ne_nil h2) fun _ _ => .sumAdd
  | sumSub _ h2 ih1 ih2 =>
    intro _ hm
    exact through_binary (by simp) (conserved_op (by simp)) (ih1 (by simp) fun x hx => hm x (by simp [hx]))
      (ih2 (by simp) fun x hx => hm x (by simp [hx])) (reads_ne_nil h2) fun _ _ => .sumSub
  | termFactor _ ih =>
    intro _ hm n r hn
    obtain ⟨t', e, h⟩ := ih (by simp) hm n r hn
    exact ⟨t', e, .termFactor h⟩
  | termMul _ h2 ih1 ih2 =>
    intro _ hm
    exact through_binary (by simp) (conserved_op (by simp)) (ih1 (by simp) fun x hx => hm x (by simp [hx]))
      (ih2 (by simp) fun x hx => hm x (by simp [hx])) (reads_ne_nil h2) fun _ _ => .termMul
  | termDiv _ h2 ih1 ih2 =>
    intro _ hm
    exact through_binary (by simp) (conserved_op (by simp)) (ih1 (by simp) fun x hx => hm x (by simp [hx]))
      (ih2 (by simp) fun x hx => hm x (by simp [hx])) (reads_ne_nil h2) fun _ _ => .termDiv
  | @neg a x h ih =>
    intro _ hm n r hn
    obtain ⟨t', e, h'⟩ := ih (by simp) (fun x hx => hm x (by simp [hx])) n r hn
    refine ⟨.sub :: t', ?_, .neg h'⟩
    obtain ⟨a0, as, rfl⟩ := List.exists_cons_of_ne_nil (reads_ne_nil h)
    rw [List.cons_append, List.cons_append, go_copy L _ _ _ (conserved_op (by simp)), ← List.cons_append, e, map_map_cons]
  | factorPower _ ih =>
    intro _ hm n r hn
    obtain ⟨t', e, h⟩ := ih (by simp) hm n r hn
    exact ⟨t', e, .factorPower h⟩
  | powerAtom _ ih =>
    intro _ hm n r hn
    obtain ⟨t', e, h⟩ := ih (by simp) hm n r hn
    exact ⟨t', e, .powerAtom h⟩
  | pow _ h2 ih1 ih2 =>
    intro _ hm
    exact through_binary (by simp) (conserved_op (by simp)) (ih1 (by simp) fun x hx => hm x (by simp [hx]))
      (ih2 (by simp) fun x hx => hm x (by simp [hx])) (reads_ne_nil h2) fun _ _ => .pow
  | lit q =>
    intro _ _ n r _
    exact ⟨[.lit q], go_copy L _ _ _ (conserved_op (by simp)), .lit q⟩
  | @name s v hv =>
    intro _ hm n r hn
    cases hk : d.lookup s with
    | none =>
      exact ⟨[.name s], go_copy L _ _ _ (by rw [conserved_eq H.cons, hk]), .name s (H.var s v (hm _ (by simp)) hk hv)⟩
    | some k =>
      obtain ⟨b, hb, hr⟩ := H.bare s k v hk hv
      refine ⟨b, ?_, hr⟩
      rw [List.singleton_append, go, conserved_eq H.cons, hk]
      simp only [if_neg hn, hb]
  | @paren a x h ih =>
    intro _ hm n r hn
    obtain ⟨t', e, h'⟩ := ih (by simp) (fun x hx => hm x (by simp [hx])) .rp (n :: r) (by simp)
    refine ⟨.lp :: (t' ++ [.rp]), ?_, .paren h'⟩
    obtain ⟨a0, as, rfl⟩ := List.exists_cons_of_ne_nil (reads_ne_nil h)
    rw [show (Tok.lp :: ((a0 :: as) ++ [Tok.rp])) ++ n :: r = Tok.lp :: a0 :: (as ++ Tok.rp :: n :: r) by simp,
      go_copy L _ _ _ (conserved_op (by simp)), ← List.cons_append, e, go_copy L _ _ _ (conserved_op (by simp))]
    cases go L .out (n :: r) <;> simp
  | @call s a xs hc h ih =>
    intro _ hm n r hn
    obtain ⟨t', e, h'⟩ := ih (by simp) (fun x hx => hm x (by simp [hx])) .rp (n :: r) (by simp)
    refine ⟨.name s :: .lp :: (t' ++ [.rp]), ?_, .call s (by rw [H.free.1]; trivial) h'⟩
    obtain ⟨a0, as, rfl⟩ := List.exists_cons_of_ne_nil (reads_ne_nil h)
    rw [show (Tok.name s :: Tok.lp :: ((a0 :: as) ++ [Tok.rp])) ++ n :: r =
        Tok.name s :: Tok.lp :: a0 :: (as ++ Tok.rp :: n :: r) by simp,
      go_copy L _ _ _ (by rw [conserved_eq H.cons, H.callee s hc]), go_copy L _ _ _ (conserved_op (by simp)),
      ← List.cons_append, e, go_copy L _ _ _ (conserved_op (by simp))]
    cases go L .out (n :: r) <;> simp
  | @item s a xs v h hv _ =>
    intro _ hm n r hn
    obtain ⟨k, hk⟩ := H.only s _ _ hv
    obtain ⟨as, hf, he⟩ := go_idx H h rfl (fun x hx => hm x (by simp [hx]))
    obtain ⟨b, hb, hr⟩ := H.item s k as xs v hk hv hf
    refine ⟨_, ?_, hr⟩
    rw [show (Tok.name s :: Tok.lb :: (a ++ [Tok.rb])) ++ n :: r = Tok.name s :: Tok.lb :: (a ++ Tok.rb :: n :: r) by simp,
      go, conserved_eq H.cons, hk]
    simp only [if_pos, he, List.singleton_append, hb]
    cases go L .out (n :: r) <;> simp
  | argsOne _ ih =>
    intro _ hm n r hn
    obtain ⟨t', e, h⟩ := ih (by simp) hm n r hn
    exact ⟨t', e, .argsOne h⟩
  | argsCons _ h2 ih1 ih2 =>
    intro _ hm
    exact through_binary (by simp) (conserved_op (by simp)) (ih1 (by simp) fun x hx => hm x (by simp [hx]))
      (ih2 (by simp) fun x hx => hm x (by simp [hx])) (reads_ne_nil h2) fun _ _ => .argsCons
  | _ => intro h; simp at h

end Pylbm.Source
