import Verif.Model.Secp
/-!
# Two multiples of the base point, computed
-/

namespace BCT
namespace Secp

/-- The base point has the order SEC 2 says. -/
theorem mul_n : mul n G = none := by decide +kernel

/-- The public key of the published root key. -/
theorem root_public : publicKey ROOT_PRIVATE_ADDRESS = some ROOT_PUBLIC_ADDRESS := by decide +kernel

end Secp
end BCT
