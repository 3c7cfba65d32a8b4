/-
`print_structure` of the models without a network: univariate_binary.py, univariate_gaussian.py,
adaptive_univariate_gaussian.py, univariate_categorical.py and multivariate_gaussian.py.  (The one of `UniKDE` is in
Model/Archive, those of the networks are in Model/Net and Model/Bn.)
-/
import Verif.Model.UniBin
import Verif.Model.Gauss
import Verif.Model.Categorical
import Verif.Model.MultiGauss

namespace Verif

/-- univariate_binary.py:55-63 `print_structure`. -/
def UniBin.printStructure {K : Type} (_ : UniBin K) : List (ℕ × ℕ) := []

/-- univariate_gaussian.py:50-58 and adaptive_univariate_gaussian.py:60-68 `print_structure`. -/
def UniGauss.printStructure {K : Type} (_ : UniGauss K) : List (ℕ × ℕ) := []

/-- univariate_categorical.py:61-69 `print_structure`. -/
def UniCat.printStructure {L α K : Type} (_ : UniCat L α K) : List (L × L) := []

/-- multivariate_gaussian.py:59-67 `print_structure`. -/
def MultiGauss.printStructure {K : Type} (_ : MultiGauss K) : List (ℕ × ℕ) := []

end Verif
