/-! Model of target states and of how they are merged. -/

namespace Verif.TargetState

/-- `enum class target_state` in libbuild2/target-state.hxx:26-36, same order. -/
inductive TState where
  | uninitialized | unknown | unchanged | postponed | busy | changed | failed | group
  deriving DecidableEq, Repr

open TState

/-- The `uint8_t` value of an enumerator (libbuild2/target-state.hxx:26-36). -/
def TState.val : TState → Nat
  | uninitialized => 0
  | unknown => 1
  | unchanged => 2
  | postponed => 3
  | busy => 4
  | changed => 5
  | failed => 6
  | group => 7

/-- `operator|=` in libbuild2/target-state.hxx:38-45: replace the left state if the
right one has the greater value. -/
def merge (l r : TState) : TState :=
  if r.val > l.val then r else l

/-- The accumulation `r |= s` over a sequence of completed members as done by
`straight_execute_members` and `reverse_execute_members`
(libbuild2/algorithm.cxx:4228-4322), starting from `unchanged` (line 4233). -/
def mergeAll (ss : List TState) : TState :=
  ss.foldl merge unchanged

/-- `for (size_t i (p); i != n + p; ++i)` second loop of `straight_execute_members`
(libbuild2/algorithm.cxx:4233-4275): postponed members were merged in the first
loop and blanked out, the others are merged with their final state. Each member is
given as (state returned by `execute_async`, state returned by
`execute_complete`); `none` is a skipped (NULL) member. -/
def executeMembers (ms : List (Option (TState × TState))) : TState :=
  let r := ms.foldl (fun r m =>
    match m with
    | some (postponed, _) => merge r postponed
    | _ => r) unchanged
  ms.foldl (fun r m =>
    match m with
    | some (s, c) => if s = postponed then r else merge r c
    | none => r) r

/-- `reverse_execute_members` (libbuild2/algorithm.cxx:4278-4322): the same two loops
running from the end of the range to its beginning. -/
def reverseExecuteMembers (ms : List (Option (TState × TState))) : TState :=
  executeMembers ms.reverse

/-- The outcome of `execute_recipe`: the state stored in the target and the state
returned, or a failed assertion. Used by `executeRecipe` (libbuild2/algorithm.cxx:2006-2112). -/
inductive RecipeOut where
  | ok (stored returned : TState)
  | assertFailed
  deriving DecidableEq, Repr

/-- `execute_recipe` (libbuild2/algorithm.cxx:2006-2112), after the pre callbacks, the
recipe and the post callbacks have returned the states `ss` in this order; `none`
in the list stands for one of them throwing `failed`. `groupState` is
`(*t.group)[a].state`. The callbacks themselves and the project environment are
not modelled. -/
def executeRecipe (ss : List (Option TState)) (groupState : TState) : RecipeOut :=
  if ss.any (· == none) then .ok failed failed
  else
    let ts := mergeAll (ss.filterMap id)
    match ts with
    | changed => .ok changed changed
    | unchanged => .ok unchanged unchanged
    | postponed => .ok postponed unchanged
    | group => .ok group groupState
    | _ => .assertFailed

end Verif.TargetState
