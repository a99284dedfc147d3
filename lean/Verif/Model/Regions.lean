import Verif.Model.Pack
import Verif.Model.GatedDag
import Mathlib.Data.Prod.Lex
import Mathlib.Order.Basic

/-!
# Model of `r_u_sure/edit_distance_utility/region_decisions.py`
-/

namespace RUSure

/-- `region_decisions.py:54-60` `DecisionCategory` (ordered as listed). -/
inductive DecisionCategory where
  | start
  | stop
  | inRegion
  | exit
  deriving DecidableEq, Repr

/-- The integer value of a category (`enum.auto()` counts from 1; only the order matters). -/
def DecisionCategory.toNat : DecisionCategory → Nat
  | .start => 1
  | .stop => 2
  | .inRegion => 3
  | .exit => 4

/-- `region_decisions.py:78-82` `DecisionKey`. -/
structure DecisionKey where
  index : Nat
  cat : DecisionCategory
  deriving DecidableEq, Repr

/-- Named tuples are ordered lexicographically. -/
instance : LinearOrder DecisionKey :=
  LinearOrder.lift' (fun k => toLex (k.index, k.cat.toNat)) (by
    rintro ⟨i, c⟩ ⟨j, c'⟩ h
    have h' := congrArg ofLex h
    simp only [ofLex_toLex, Prod.mk.injEq] at h'
    obtain ⟨rfl, h2⟩ := h'
    cases c <;> cases c' <;> first | rfl | simp [DecisionCategory.toNat] at h2)

/-- `region_decisions.py:89-98` `DecisionValue` (ordered as listed). -/
inductive DecisionValue where
  | no
  | yes
  | na
  deriving DecidableEq, Repr

/-- The integer value of a decision. -/
def DecisionValue.toNat : DecisionValue → Nat
  | .no => 1
  | .yes => 2
  | .na => 3

instance : LinearOrder DecisionValue :=
  LinearOrder.lift' DecisionValue.toNat (by
    intro a b h
    cases a <;> cases b <;> first | rfl | simp [DecisionValue.toNat] at h)

/-- `region_decisions.py:121-125` `TokenWithRegionMembership`. -/
structure MarkedToken where
  text : Text
  inRegion : Bool
  deriving DecidableEq, Repr

/-- What `extract_sequence_with_regions` can raise: a missing decision (`KeyError`), a failed
assertion (line 174), an index outside of the storage, or an unknown node category (line 192). -/
inductive ExtractError where
  | key
  | assertion
  | index
  | value
  deriving DecidableEq, Repr

/-- Prepend to a successful result. -/
def consOk {α ε : Type} (x : α) : Except ε (List α) → Except ε (List α)
  | .ok l => .ok (x :: l)
  | .error e => .error e

/-- `region_decisions.py:148-192`: the loop of `extract_sequence_with_regions`; the arguments are the
local variables `in_region` and `empty_region`. The tokens yielded before an exception are not
modelled. -/
def regionLoop {M : Type} (S : Storage M) (α : DecisionKey → Option DecisionValue) (marker : Text) :
    List NodeId → Bool → Bool → Except ExtractError (List MarkedToken)
  | [], _, _ => .ok []
  | id :: ids, inr, empty =>
    match id.cat with
    | .deco =>
      match pyGet S.decos id.idx with
      | none => .error .index
      | some t => consOk ⟨t, inr⟩ (regionLoop S α marker ids inr false)
    | .tok =>
      match pyGet S.toks id.idx with
      | none => .error .index
      | some t => consOk ⟨t.1, inr⟩ (regionLoop S α marker ids inr false)
    | .rstart =>
      match α ⟨id.preorder.toNat, .start⟩ with
      | none => .error .key
      | some .yes => regionLoop S α marker ids true true
      | some _ => regionLoop S α marker ids inr empty
    | .rend =>
      match α ⟨id.preorder.toNat, .stop⟩ with
      | none => .error .key
      | some .yes =>
        if inr then
          if empty then consOk ⟨marker, true⟩ (regionLoop S α marker ids false false)
          else regionLoop S α marker ids false false
        else .error .assertion
      | some _ => regionLoop S α marker ids inr empty
    | .exit =>
      match α ⟨id.preorder.toNat, .exit⟩ with
      | none => .error .key
      | some .yes => .ok []
      | some _ => regionLoop S α marker ids inr empty
    | .group => regionLoop S α marker ids inr empty
    | .invalid => .error .value

/-- `region_decisions.py:128-192` `extract_sequence_with_regions`. -/
def extractRegions {M : Type} (S : Storage M) (α : DecisionKey → Option DecisionValue)
    (marker : Text) : Except ExtractError (List MarkedToken) :=
  regionLoop S α marker S.preorder false false

/-- The Python standard library's `html.escape` (with quotes). -/
def htmlEscape (t : Text) : Text :=
  t.flatMap fun c =>
    if c = '&' then "&amp;".toList
    else if c = '<' then "&lt;".toList
    else if c = '>' then "&gt;".toList
    else if c = '"' then "&quot;".toList
    else if c = '\'' then "&#x27;".toList
    else [c]

/-- `region_decisions.py:235-249`: the loop appending `parts`, and what follows it. -/
def htmlLoop : List MarkedToken → Bool → List Text
  | [], was => (if was then ["</span>".toList] else []) ++ ["</span>".toList]
  | t :: ts, was =>
    (if t.inRegion && !was then ["<span class=\"in_region\">".toList] else [])
      ++ (if !t.inRegion && was then ["</span>".toList] else [])
      ++ [htmlEscape t.text] ++ htmlLoop ts t.inRegion

/-- `region_decisions.py:216-233`: the style sheet, with the three colors inserted, and the opening
tag of the root span. -/
def htmlHeader (textColor borderColor backgroundColor : Text) : Text :=
  "<style>
        .regions_root {
            white-space: pre;
            font-family: monospace;
            color: black;
            font-weight: bold;
        }
        .regions_root .in_region {
            color: ".toList ++ textColor ++ ";
            border: solid 1px ".toList ++ borderColor ++ ";
            border-radius: 3px;
            background-color: ".toList ++ backgroundColor ++ ";
        }
      </style><span class=\"regions_root\">".toList

/-- `region_decisions.py:195-252` `render_regions_to_html`. -/
def renderRegionsHtml {M : Type} (S : Storage M) (α : DecisionKey → Option DecisionValue)
    (textColor borderColor backgroundColor : Text) : Except ExtractError Text :=
  match extractRegions S α ['︙'] with
  | .error e => .error e
  | .ok ts => .ok (htmlHeader textColor borderColor backgroundColor ++ (htmlLoop ts false).flatten)

end RUSure
