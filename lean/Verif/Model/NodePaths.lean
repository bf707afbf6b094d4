import Verif.Model.KeyFile

/-
Model of the functions of /repo/src/util/lc_util.go:386-404 that say where the files of a node are.
-/

namespace Poodle

/-- `lc_get_node_conf_path`, /repo/src/util/lc_util.go:386-388. -/
def nodeConfPath (node : Path) : Path := keyDir .node node ++ "/node.conf".toList

/-- `lc_get_lib_dir`, /repo/src/util/lc_util.go:390-392 with `DEFAULT_LIB_DIR` of const_util.go:11. -/
def libDir (node : Path) : Path := "/var/lib/poodle".toList ++ "/".toList ++ node

/-- `lc_get_transaction_log_dir`, /repo/src/util/lc_util.go:394-396. -/
def transactionLogDir (node : Path) : Path := libDir node ++ "/transaction".toList

/-- `lc_get_domain_dir`, /repo/src/util/lc_util.go:398-400. -/
def domainDir (node domain : Path) : Path := libDir node ++ "/domain/".toList ++ domain

/-- `lc_get_log_dir`, /repo/src/util/lc_util.go:402-404 with `DEFAULT_LOG_DIR` of const_util.go:12. -/
def logDir (node : Path) : Path := "/var/log/poodle".toList ++ "/".toList ++ node

end Poodle
