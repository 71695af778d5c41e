import Verif.Basic

/-!
# The tutorials of the web page

The data of /repo/zia-lang.org/crate/src/page/home/tutorials.rs.
-/

namespace Zia

/-- `tutorials.rs` 273-278 `struct TutorialStep`. `expected` is the field `expected_evaluation`, which
only the tests of the page have. -/
structure TutorialStep where
  command : Str
  explanation : Str
  expected : Str
  deriving DecidableEq, Repr

/-- `tutorials.rs` 268-271 `struct Tutorial`; the number of steps is the length of the list. -/
structure Tutorial where
  title : Str
  steps : List TutorialStep
  deriving DecidableEq, Repr

namespace Tutorials

/-- `tutorials.rs` 5-117. -/
def factorial : Tutorial :=
  ⟨str% "Factorial",
   [⟨str% "let 1 ! -> 1",
     str% "You can first define the factorial operator, !, for one",
     str% ""⟩,
    ⟨str% "let assoc +1 -> left",
     str% "and define the increment operator +1 to be left associative",
     str% ""⟩,
    ⟨str% "let (_x_ +1) ! -> (_x_ +1) * _x_ !",
     str% "Then define the factorial of the next integer after _x_, _x_ +1, for any _x_ in terms of _x_ !",
     str% ""⟩,
    ⟨str% "let _x_ * 1 -> _x_",
     str% "Need to define the multiplication operator, *. You can start by defining that anything multiplied by one is itself",
     str% ""⟩,
    ⟨str% "let 2 := 1 +1",
     str% "Define what two is in terms of the increment operator, +1",
     str% ""⟩,
    ⟨str% "2 !",
     str% "Finally you can evaluate two factorial!",
     str% "2"⟩,
    ⟨str% "let 3 := 2 +1",
     str% "Next let's define three",
     str% ""⟩,
    ⟨str% "3 !",
     str% "Now check what three factorial is",
     str% "3 * 2"⟩,
    ⟨str% "let * precedes +",
     str% "We can reduce a multiplication expression to an addition expression but first we define the relative operator precendence",
     str% ""⟩,
    ⟨str% "let + (precedes ->)",
     str% "This allows reduction rules to not need as many parentheses",
     str% ""⟩,
    ⟨str% "let (_x_ * (_y_ +1) -> _x_ * _y_ + _x_)",
     str% "Now let's define how to reduce a multiplication expression",
     str% ""⟩,
    ⟨str% "3 !",
     str% "Now three factorial can be broken down further",
     str% "3 + 3"⟩,
    ⟨str% "let _x_ + 1 -> (_x_ +1)",
     str% "Adding one to a number increments that number",
     str% ""⟩,
    ⟨str% "let _x_ + (_y_ +1) -> (_x_ +1) + _y_",
     str% "Helps to reduce addition expressions",
     str% ""⟩,
    ⟨str% "let 4 := 3 +1",
     str% "Define four",
     str% ""⟩,
    ⟨str% "let 5 := 4 +1",
     str% "Define five",
     str% ""⟩,
    ⟨str% "let 6 := 5 +1",
     str% "Define six",
     str% ""⟩,
    ⟨str% "3 !",
     str% "Now three factorial can be broken down even further",
     str% "6"⟩]⟩

/-- `tutorials.rs` 118-182. -/
def relationships : Tutorial :=
  ⟨str% "Relationships",
   [⟨str% "let Alice is parent of Bob",
     str% "We can define Alice's relationship to Bob",
     str% ""⟩,
    ⟨str% "let (_x_ is parent of _y_) => _y_ is child of _x_",
     str% "Determine child relationship from parent relationship",
     str% ""⟩,
    ⟨str% "Bob is child of Alice",
     str% "Let's check",
     str% "true"⟩,
    ⟨str% "let (not _x_) => (_x_ -> false)",
     str% "If the negation of a predicate is true then the predicate itself is false",
     str% ""⟩,
    ⟨str% "let (_x_ is parent of _y_) => not _x_ is child of _y_",
     str% "Parents can't be children of their children",
     str% ""⟩,
    ⟨str% "Alice is child of Bob",
     str% "Let's check",
     str% "false"⟩,
    ⟨str% "let Alice is child of Bob",
     str% "We won't accidentally define a parent as a child of their child",
     str% "Alice is child of Bob already reduces to false"⟩,
    ⟨str% "let ((_y_ exists_such_that) (_x_ is parent of _y_) and (_y_ is parent of _z_)) => (_x_ is grandparent of _z_)",
     str% "Define grandparent is terms of parent relationships",
     str% ""⟩,
    ⟨str% "let Charlie is parent of Alice",
     str% "This should make Charlie the grandparent of Bob",
     str% ""⟩,
    ⟨str% "Charlie is grandparent of Bob",
     str% "Let's check",
     str% "true"⟩]⟩

/-- `tutorials.rs` 183-259. -/
def arrays : Tutorial :=
  ⟨str% "Arrays",
   [⟨str% "let ([ _x_ ])[ 0 ] -> _x_",
     str% "Define the base case for array access",
     str% ""⟩,
    ⟨str% "([ 2 ])[ 0 ]",
     str% "We can now access the element of any array with that has a single element",
     str% "2"⟩,
    ⟨str% "let ([ _x_ , _y_)[ 0 ] -> _x_",
     str% "Define the first element of an array with more than one element",
     str% ""⟩,
    ⟨str% "([ 5 , 3 ])[ 0 ]",
     str% "We can access the first element of any array",
     str% "5"⟩,
    ⟨str% "let ([ _x_ , _y_)[ (_i_ +1) ] -> ([ _y_)[ _i_ ]",
     str% "Define the how to access subsequent elements of an array",
     str% ""⟩,
    ⟨str% "let 1 := 0 +1",
     str% "Define the number one",
     str% ""⟩,
    ⟨str% "([ 5 , 3 ])[ 1 ]",
     str% "We can now access any element of any array",
     str% "3"⟩,
    ⟨str% "let (_x_ ]) push _y_ -> _x_ , _y_ ]",
     str% "Define pushing an element to the end of an array",
     str% ""⟩,
    ⟨str% "let ([ _x_) push _y_ -> [ _x_ push _y_",
     str% "Define pushing an element to the start of an array",
     str% ""⟩,
    ⟨str% "([ 5 ]) push 3",
     str% "We can now push to arrays with a single element",
     str% "[ 5 , 3 ]"⟩,
    ⟨str% "let (_x_ , _y_) push _z_ -> _x_ , _y_ push _z_",
     str% "Define pushing an element to the middle of an array",
     str% ""⟩,
    ⟨str% "([ 5 , 3 ]) push 1",
     str% "We can now push to arrays with multiple elements",
     str% "[ 5 , 3 , 1 ]"⟩]⟩

/-- `tutorials.rs` 4-260 `TUTORIALS`. -/
def all : List Tutorial := [factorial, relationships, arrays]

end Tutorials

end Zia
